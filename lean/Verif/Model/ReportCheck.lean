import Verif.Model.Report
import Verif.Model.ReportOptimal
import Verif.Model.Output

/-!
# Model of what the checks of `abcvoting/properties.py` print

A call is modelled by the messages it prints (before it returns or raises) and its result.
-/

namespace Abc

/-- Formatting of numbers: `num` is `str` of a number given by the user or computed exactly (the quota), `float` is `str` of a number
returned by Gurobi, `percent x` is `f"{x*100:.1f}"`. -/
structure Format where
  num : ℚ → Name
  float : ℚ → Name
  percent : ℚ → Name

/-- `"." if standard_quota else f" (for quota = {quota})."` (e.g. properties.py:310-313). -/
def quotaSuffix (fmt : Format) (quota : Option ℚ) : Name :=
  match quota with
  | none => ".".toList
  | some q => " (for quota = ".toList ++ fmt.num q ++ ").".toList

/-- `f"Committee {str_set_of_candidates(committee)} " + text` at level INFO (e.g. properties.py:305-314). -/
def committeeMsg (committee : List ℕ) (text : Name) : Msg :=
  infoMsg ("Committee ".toList ++ strKey committee ++ " ".toList ++ text)

/-- `f"({fractional_size*100:.1f}% of all voters{' (by weight)' if not profile.has_unit_weights() else ''})"` (e.g.
properties.py:320-325). -/
def shareText (fmt : Format) (p : Profile) (group : List ℕ) : Name :=
  "(".toList ++ fmt.percent (p.groupWeight group / p.totalWeight) ++ "% of all voters".toList ++
    (if ¬ p.hasUnitWeights then " (by weight)".toList else []) ++ ")".toList

/-- The common part of the `check_…` functions with a quota (e.g. properties.py:286-331): `satisfies`, `violates` are the two verdicts,
`explain` the explanation of a violation; `fractional_size` divides by the total weight. -/
def reportWith {ω : Type} (chk : List ℕ → ℚ → Except Err (Option ω)) (satisfies violates : Name) (explain : ω → Except Err Msg)
    (fmt : Format) (p : Profile) (committee : List ℤ) (quota : Option ℚ) : List Msg × Except Err Bool :=
  match quotaOf p committee quota with
  | .error e => ([], .error e)
  | .ok q =>
    match candidateSet committee (some p.numCand) with
    | .error e => ([], .error e)
    | .ok w =>
      match chk w q with
      | .error e => ([], .error e)
      | .ok none => ([committeeMsg w (satisfies ++ quotaSuffix fmt quota)], .ok true)
      | .ok (some info) =>
        let verdict := committeeMsg w (violates ++ quotaSuffix fmt quota)
        if p.totalWeight = 0 then ([verdict], .error .zeroDivisionError)
        else
          match explain info with
          | .error e => ([verdict], .error e)
          | .ok m => ([verdict, m], .ok false)

/-- The explanation of `check_JR` (properties.py:524-534). -/
def explainJR (fmt : Format) (p : Profile) (w : List ℕ × ℕ) : Except Err Msg := do
  let name ← pyGet p.candNames w.2
  .ok (detailsMsg ("(The 1-cohesive group of voters ".toList ++ strKey w.1 ++ " ".toList ++ shareText fmt p w.1 ++
    " jointly approve candidate ".toList ++ name ++ ", but none of them approve a candidate in the committee.)".toList))

/-- The explanation of `check_EJR` (properties.py:316-329). -/
def explainEJR (fmt : Format) (p : Profile) (w : CohesiveInfo) : Except Err Msg :=
  .ok (detailsMsg ("(The ".toList ++ strNat w.ell ++ "-cohesive group of voters ".toList ++ strKey w.group ++ " ".toList ++
    shareText fmt p w.group ++ " jointly approve the candidates ".toList ++ strKey w.joint ++ ", but none of them approves ".toList ++
    strNat w.ell ++ " candidates in the committee.)".toList) " ".toList)

/-- The explanation of `check_PJR` (properties.py:426-438). -/
def explainPJR (fmt : Format) (p : Profile) (w : CohesiveInfo) : Except Err Msg :=
  .ok (detailsMsg ("(The ".toList ++ strNat w.ell ++ "-cohesive group of voters ".toList ++ strKey w.group ++ " ".toList ++
    shareText fmt p w.group ++ " jointly approve the candidates ".toList ++ strKey w.joint ++
    ", but they approve fewer than ".toList ++ strNat w.ell ++ " candidates in the committee.)".toList))

/-- The explanation of `check_EJR_plus` (properties.py:1052-1065). -/
def explainEJRPlus (fmt : Format) (p : Profile) (w : List ℕ × ℕ × ℕ) : Except Err Msg := do
  let name ← pyGet p.candNames w.2.1
  .ok (detailsMsg ("(The group of voters ".toList ++ strKey w.1 ++ " ".toList ++ shareText fmt p w.1 ++ " deserves ".toList ++
    strNat w.2.2 ++ " candidates, and jointly approve candidate ".toList ++ name ++
    " which is not part of the committee, but no member approves at least ".toList ++ strNat w.2.2 ++
    " members of the committee.)".toList))

/-- The explanation of `check_FJR` (properties.py:1407-1420); `beta` formats `beta` and `beta - 1`, integers with brute force and floats
with Gurobi.  There is no space between the parts of the text. -/
def explainFJR (fmt : Format) (beta : ℕ → Name) (p : Profile) (w : FJRInfo) : Except Err Msg :=
  .ok (detailsMsg ("(The weakly cohesive group of voters ".toList ++ strKey w.group ++ shareText fmt p w.group ++
    "each approve at least ".toList ++ beta w.beta ++ " of the ".toList ++ strNat w.joint.length ++ " candidates ".toList ++
    strKey w.joint ++ ",but all approve at most ".toList ++ beta (w.beta - 1) ++ " candidates in the committee.)".toList) " ".toList)

/-- The explanation of `check_core` (properties.py:1614-1625). -/
def explainCore (fmt : Format) (p : Profile) (w : List ℕ × List ℕ) : Except Err Msg :=
  .ok (detailsMsg ("(The group of voters ".toList ++ strKey w.1 ++ " ".toList ++ shareText fmt p w.1 ++
    " can block the outcome by proposing ".toList ++ strKey w.2 ++
    ", in which each group member approves strictly more candidates.)".toList))

/-- `check_pareto_optimality` with its messages (properties.py:193-221). -/
def reportPareto (solve : Program → SolveResult) (p : Profile) (committee : List ℤ) (algorithm : String) : List Msg × Except Err Bool :=
  match candidateSet committee (some p.numCand) with
  | .error e => ([], .error e)
  | .ok w =>
    match byAlgorithm algorithm (checkParetoInner p w) (checkParetoGurobi solve p w) with
    | .error e => ([], .error e)
    | .ok none => ([committeeMsg w "is Pareto optimal.".toList], .ok true)
    | .ok (some d) =>
      ([committeeMsg w "is not Pareto optimal.".toList,
        detailsMsg ("(It is dominated by the committee ".toList ++ strKey d ++ ".)".toList)], .ok false)

/-- `s.rjust(width)`. -/
def rjust (width : ℕ) (s : Name) : Name := List.replicate (width - s.length) ' ' ++ s

/-- `column_widths[candidate]` (properties.py:1312-1318). -/
def columnWidth (fmt : Format) (p : Profile) (x : IVar → ℚ) (c : ℕ) : Except Err ℕ := do
  let m ← pyMaxNat ((List.range p.voters.length).map (fun i => (fmt.float (x (.assigned i c))).length))
  .ok (max (strNat c).length m)

/-- A row of the table (properties.py:1320-1337). -/
def tableRow (width : ℕ) (label : Name) (cells : List Name) : Msg := detailsMsg (rjust width label ++ " | ".toList ++ joinText " | ".toList cells)

/-- The table of payments (properties.py:1312-1337); `payment[voter].items()` lists the candidates in ascending order. -/
def priceTable (fmt : Format) (p : Profile) (x : IVar → ℚ) : Except Err (List Msg) := do
  let widths ← p.candidates.mapM (columnWidth fmt p x)
  let width := (strNat p.voters.length).length
  .ok (tableRow width [] ((p.candidates.zip widths).map (fun cw => rjust cw.2 (strNat cw.1))) ::
    (List.range p.voters.length).map (fun i =>
      tableRow width (strNat i) ((p.candidates.zip widths).map (fun cw => rjust cw.2 (fmt.float (x (.assigned i cw.1)))))))

/-- `_check_priceability_gurobi` with its messages (properties.py:1199-1345); the table is printed for unit weights only. -/
def reportPriceabilityGurobi (fmt : Format) (solve : Program → SolveResult) (solveMax : MaxProgram → SolveResult) (p : Profile)
    (committee : List ℕ) (stable : Bool) : List Msg × Except Err Bool :=
  let approved := p.candidates.filter (fun c => p.voters.any (fun v => decide (c ∈ v.approved)))
  if approved.length < committee.length then ([], .ok (approved.all (fun c => decide (c ∈ committee))))
  else
    match if stable then solveMax (stableProgram p committee) else solve (priceProgram p committee) with
    | .optimal x =>
      if p.hasUnitWeights then
        let budget := detailsMsg ("Budget: ".toList ++ fmt.float (x .value))
        match priceTable fmt p x with
        | .error e => ([budget], .error e)
        | .ok table => (budget :: table, .ok true)
      else ([], .ok true)
    | .infeasible => ([detailsMsg "No feasible budget and payment function".toList], .ok false)
    | .other => ([], .error .runtimeError)

/-- `check_priceability` with its messages (properties.py:1146-1169), and `check_stable_priceability` (1172-1196). -/
def reportPriceability (fmt : Format) (solve : Program → SolveResult) (solveMax : MaxProgram → SolveResult) (p : Profile)
    (committee : List ℤ) (algorithm : String) (stable : Bool) : List Msg × Except Err Bool :=
  match candidateSet committee (some p.numCand) with
  | .error e => ([], .error e)
  | .ok w =>
    if algorithm = "fastest" ∨ algorithm = "gurobi" then
      match reportPriceabilityGurobi fmt solve solveMax p w stable with
      | (ms, .error e) => (ms, .error e)
      | (ms, .ok b) =>
        (ms ++ [committeeMsg w ((if b then "is ".toList else "is not ".toList) ++ (if stable then "stable ".toList else []) ++
          "priceable.".toList)], .ok b)
    else ([], .error .notImplemented)

/-- `beta` as printed by `check_FJR`: with brute force an `int`, with Gurobi a `float`. -/
def betaText (fmt : Format) (algorithm : String) (b : ℕ) : Name := if algorithm = "brute-force" then strNat b else fmt.float b

/-- `check` with its messages (properties.py:87-140). -/
def checkReport (fmt : Format) (solve : Program → SolveResult) (solveMax : MaxProgram → SolveResult) (approved : List ℕ) (name : String)
    (p : Profile) (committee : List ℤ) (quota : Option ℚ) (algorithm : String) : List Msg × Except Err Bool :=
  if name = "pareto" then
    if quota.isSome then ([], .error .valueError) else reportPareto solve p committee algorithm
  else if name = "jr" then
    reportWith (checkJRInner p) "satisfies JR".toList "does not satisfy JR".toList (explainJR fmt p) fmt p committee quota
  else if name = "pjr" then
    reportWith (fun w q => byAlgorithm algorithm (checkPJRInner p w q) (checkPJRGurobi solve p w q)) "satisfies PJR".toList
      "does not satisfy PJR".toList (explainPJR fmt p) fmt p committee quota
  else if name = "ejr" then
    reportWith (fun w q => byAlgorithm algorithm (checkEJRInner p w q) (checkEJRGurobi solve p w q)) "satisfies EJR".toList
      "does not satisfy EJR".toList (explainEJR fmt p) fmt p committee quota
  else if name = "ejr+" then
    reportWith (checkEJRPlusInner p) "satisfies EJR+".toList "does not satisfy EJR+".toList (explainEJRPlus fmt p) fmt p committee quota
  else if name = "fjr" then
    reportWith (fun w q => byAlgorithm algorithm (checkFJRInner approved p w q) (checkFJRGurobi solve p w q)) "satisfies FJR".toList
      "does not satisfy FJR".toList (explainFJR fmt (betaText fmt algorithm) p) fmt p committee quota
  else if name = "priceability" then
    if quota.isSome then ([], .error .valueError) else reportPriceability fmt solve solveMax p committee algorithm false
  else if name = "stable-priceability" then
    if quota.isSome then ([], .error .valueError) else reportPriceability fmt solve solveMax p committee algorithm true
  else if name = "core" then
    reportWith (fun w q => byAlgorithm algorithm (checkCoreInner approved p w q) (checkCoreGurobi solve p w q)) "is in the core".toList
      "is not in the core".toList (explainCore fmt p) fmt p committee quota
  else ([], .error .valueError)

/-- The texts of `full_analysis` (properties.py:66-76). -/
def propertyDescription (name : String) : Name :=
  if name = "pareto" then "Pareto optimality".toList
  else if name = "jr" then "Justified representation (JR)".toList
  else if name = "pjr" then "Proportional justified representation (PJR)".toList
  else if name = "ejr" then "Extended justified representation (EJR)".toList
  else if name = "ejr+" then "EJR+".toList
  else if name = "fjr" then "Full justified representation (FJR)".toList
  else if name = "priceability" then "Priceability".toList
  else if name = "stable-priceability" then "Stable Priceability".toList
  else "The core".toList

/-- `f"{description[prop]:50s} : {value}"` (properties.py:82). -/
def analysisLine (name : String) (value : Bool) : Name :=
  let d := propertyDescription name
  d ++ List.replicate (50 - d.length) ' ' ++ " : ".toList ++ (if value then "True".toList else "False".toList)

/-- `full_analysis` (properties.py:38-84) with the messages of the checks and its own lines. -/
def fullAnalysisReport (fill : Name → Name → Name) (fmt : Format) (solve : Program → SolveResult) (solveMax : MaxProgram → SolveResult)
    (approved : List ℕ) (p : Profile) (committee : List ℤ) (o : Output) : Output × Except Err (List (String × Bool)) :=
  fullAnalysisWith fill (fun name => (checkReport fmt solve solveMax approved name p committee none "fastest").2)
    (fun name => (checkReport fmt solve solveMax approved name p committee none "fastest").1) analysisLine o

end Abc
