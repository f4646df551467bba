import Verif.Model.ILP
import Verif.Model.Phragmen
import Verif.Model.Budgets

/-!
# Model of the load-balancing rules that need a solver: minimax-Phragmén, leximax-Phragmén, maximin support

(abcrules_gurobi.py:367-607, abcrules_mip.py:303-436, abcrules.py:3485-3895).  As in `Model/ILP`, voters are indexed by position and
numbers are exact rationals; the tolerances used by the *code* are kept.
-/

namespace Abc

/-! ## minimax-Phragmén -/

/-- The variables `load` (abcrules_gurobi.py:381-384, 450-452, abcrules_mip.py:317-322). -/
def loadVars (p : Profile) : List VarDecl :=
  p.candidates.flatMap (fun c => (List.range p.voters.length).map (fun i =>
    { v := .load i c, integer := false, lb := 0, ub := some 1 }))

/-- `load[(voter, cand)]` after the entries of non-approved candidates have been overwritten with 0
(abcrules_gurobi.py:391-394, 473-476, abcrules_mip.py:327-330). -/
def loadExp (v : Voter) (i c : ℕ) : LinExp := if c ∉ v.approved then .num 0 else .var (.load i c)

/-- A candidate's load is distributed among the approvers (abcrules_gurobi.py:397-405, 479-487, abcrules_mip.py:333-341). -/
def loadConstrs (p : Profile) : List Constr :=
  p.candidates.map (fun c =>
    { lhs := LinExp.sum (p.voters.zipIdx.map (fun vi => LinExp.scale vi.1.weight (loadExp vi.1 vi.2 c)))
      rel := .ge
      rhs := .var (.cand c) })

/-- `quicksum(load[(voter, cand)] for cand in voter.approved)` (e.g. abcrules_gurobi.py:410). -/
def voterLoadExp (v : Voter) (i : ℕ) : LinExp := LinExp.sum (v.approved.map (fun c => loadExp v i c))

/-- `loadbound` / `newloadbound` (abcrules_gurobi.py:407, 499, abcrules_mip.py:343-345). -/
def loadBoundVar (k : ℕ) : VarDecl := { v := .value, integer := false, lb := 0, ub := some (k : ℚ) }

/-- The program of `_gurobi_minimaxphragmen` and `_mip_minimaxphragmen` (abcrules_gurobi.py:380-414, abcrules_mip.py:316-350). -/
def minimaxphragmenProgram (p : Profile) (k : ℕ) : Program :=
  { vars := candVars p ++ loadVars p ++ [loadBoundVar k]
    constrs := sizeConstr p k :: loadConstrs p ++ p.voters.zipIdx.map (fun vi =>
      { lhs := voterLoadExp vi.1 vi.2, rel := .le, rhs := .var .value })
    obj := LinExp.scale (-1) (.var .value) }

/-- The branch for an insufficient number of approved candidates (abcrules_gurobi.py:417-433, 514-529, abcrules_mip.py:354-369).  A
Python set is represented by a list of its members; neither the committees nor the list of committees is sorted here, and
`max_num_of_committees` is not used. -/
def tooFewApproved (p : Profile) (k : ℕ) (resolute : Bool) : List (List ℕ) :=
  let approved := p.approvedCandidates
  let remaining := p.candidates.filter (fun c => decide (c ∉ approved))
  let missing := k - approved.length
  if resolute then [approved ++ remaining.take missing]
  else (combinations remaining missing).map (fun extra => approved ++ extra)

/-- `_gurobi_minimaxphragmen`, `_mip_minimaxphragmen` (abcrules_gurobi.py:367-443, abcrules_mip.py:303-380). -/
def ilpMinimaxphragmen (solve : Program → SolveResult) (p : Profile) (k : ℕ) (resolute : Bool) (max : Option ℕ) :
    Except Err (List (List ℕ)) :=
  if p.approvedCandidates.length < k then .ok (tooFewApproved p k resolute)
  else do
    let r ← optimizeRule solve thrMip none p k resolute max (minimaxphragmenProgram p k)
    sortedCommittees r.1

/-- `compute_minimaxphragmen` (abcrules.py:3485-3586). -/
def computeMinimaxphragmen (env : Env) (solve : String → Program → SolveResult) (p : Profile) (a : Args) :
    Except Err (List (List ℕ)) := do
  let algorithm ← prologue env "minimaxphragmen" p a
  if algorithm = "gurobi" then ilpMinimaxphragmen (solve algorithm) p a.k a.resolute a.maxNum
  else if algorithm.toList.take 4 = "mip-".toList then ilpMinimaxphragmen (solve algorithm) p a.k a.resolute a.maxNum
  else .error .unknownAlgorithm

/-! ## leximax-Phragmén -/

/-- The variables `loadbound_constraint` (abcrules_gurobi.py:454-458). -/
def boundForVars (p : Profile) : List VarDecl :=
  (List.range p.voters.length).flatMap (fun i => (List.range p.voters.length).map (fun j => binaryVar (.boundFor i j)))

/-- `loadbound_constraint` is a permutation matrix (abcrules_gurobi.py:460-466). -/
def boundForConstrs (p : Profile) : List Constr :=
  (List.range p.voters.length).flatMap (fun i =>
    [{ lhs := LinExp.sum ((List.range p.voters.length).map (fun j => .var (.boundFor i j))), rel := .eq, rhs := .num 1 },
     { lhs := LinExp.sum ((List.range p.voters.length).map (fun j => .var (.boundFor j i))), rel := .eq, rhs := .num 1 }])

/-- The program of `_gurobi_leximaxphragmen` (abcrules_gurobi.py:447-510) for the current list `loadbounds`.  The code uses
`acc = ACCURACY`; it is a parameter in order to state what the tolerance does. -/
def leximaxphragmenProgram (acc : ℚ) (p : Profile) (k : ℕ) (loadbounds : List ℚ) : Program :=
  { vars := candVars p ++ loadVars p ++ boundForVars p ++ [loadBoundVar k]
    constrs := boundForConstrs p ++ sizeConstr p k :: loadConstrs p ++
      loadbounds.zipIdx.flatMap (fun bi => p.voters.zipIdx.map (fun vj =>
        { lhs := voterLoadExp vj.1 vj.2
          rel := .le
          rhs := LinExp.add (LinExp.add (.num bi.1) (LinExp.scale k (LinExp.sub (.num 1) (.var (.boundFor bi.2 vj.2)))))
            (.num acc) })) ++
      p.voters.zipIdx.map (fun vj =>
        { lhs := voterLoadExp vj.1 vj.2
          rel := .le
          rhs := LinExp.add (.var .value)
            (LinExp.sum ((List.range loadbounds.length).map (fun i => LinExp.scale k (.var (.boundFor i vj.2))))) })
    obj := LinExp.scale (-1) (.var .value) }

/-- `math.isclose(x, 0, rel_tol=CMP_ACCURACY, abs_tol=CMP_ACCURACY)` (abcrules_gurobi.py:543):
`abs(x - 0) <= max(rel_tol * max(abs(x), 0), abs_tol)`. -/
def isCloseZero (x : ℚ) : Bool := decide (|x| ≤ max (cmpAccuracy * |x|) cmpAccuracy)

/-- The loop `for iteration in range(len(profile) - 1)` (abcrules_gurobi.py:532-546); returns `loadbounds`. -/
def leximaxphragmenLoop (solve : Program → SolveResult) (p : Profile) (k : ℕ) : ℕ → List ℚ → Except Err (List ℚ)
  | 0, loadbounds => .ok loadbounds
  | n + 1, loadbounds => do
    let r ← optimizeRule solve thrMip none p k true none (leximaxphragmenProgram accuracy p k loadbounds)
    if isCloseZero r.2 then .ok loadbounds
    else leximaxphragmenLoop solve p k n (loadbounds ++ [-r.2])

/-- `_gurobi_leximaxphragmen` (abcrules_gurobi.py:446-557). -/
def gurobiLeximaxphragmen (solve : Program → SolveResult) (p : Profile) (k : ℕ) (resolute : Bool) (max : Option ℕ) :
    Except Err (List (List ℕ)) :=
  if p.approvedCandidates.length < k then .ok (tooFewApproved p k resolute)
  else do
    let loadbounds ← leximaxphragmenLoop solve p k (p.voters.length - 1) []
    let r ← optimizeRule solve thrMip none p k resolute max (leximaxphragmenProgram accuracy p k loadbounds)
    sortedCommittees r.1

/-- `compute_leximaxphragmen` (abcrules.py:3589-3706). -/
def computeLeximaxphragmen (env : Env) (solve : String → Program → SolveResult) (p : Profile) (a : Args)
    (lexicographicTiebreaking : Bool := false) : Except Err (List (List ℕ)) := do
  let algorithm ← prologue env "leximaxphragmen" p a
  if lexicographicTiebreaking ∧ ¬ a.resolute then .error .valueError
  else if algorithm = "gurobi" then
    let resolute := if lexicographicTiebreaking then false else a.resolute
    let committees ← gurobiLeximaxphragmen (solve algorithm) p a.k resolute a.maxNum
    if lexicographicTiebreaking then
      let committees ← sortedCommittees committees
      .ok (committees.take 1)
    else .ok committees
  else .error .unknownAlgorithm

/-! ## Maximin support -/

/-- The linear program for the committee `committee` (abcrules_gurobi.py:580-597, abcrules_mip.py:401-425). -/
def maximinProgram (p : Profile) (committee : List ℕ) : Program :=
  { vars := { v := .value, integer := false, lb := 0 } ::
      (List.range p.voters.length).flatMap (fun i => p.candidates.map (fun c => { v := .assigned i c, integer := false, lb := 0 }))
    constrs := (p.voters.zipIdx.filter (fun vi => decide (vi.1.approved.filter (fun c => decide (c ∈ committee)) ≠ []))).map
        (fun vi =>
          { lhs := LinExp.sum ((vi.1.approved.filter (fun c => decide (c ∈ committee))).map (fun c => .var (.assigned vi.2 c)))
            rel := .eq
            rhs := .num vi.1.weight }) ++
      committee.map (fun c =>
        { lhs := LinExp.sum ((p.voters.zipIdx.filter (fun vi => decide (c ∈ vi.1.approved))).map (fun vi =>
            .var (.assigned vi.2 c)))
          rel := .ge
          rhs := .var .value })
    obj := .var .value }

/-- `_gurobi_maximin_support_scorefct`, `_mip_maximin_support_scorefct` (abcrules_gurobi.py:560-607, abcrules_mip.py:383-436). -/
def maximinScores (solve : Program → SolveResult) (p : Profile) (base : List ℕ) : Except Err (List ℚ) :=
  p.candidates.mapM (fun c =>
    if c ∈ base then .ok 0
    else
      match solve (maximinProgram p (base ++ [c])) with
      | .optimal x => .ok (x .value)
      | _ => .error .runtimeError)

/-- The tied candidates, in the iteration order of the set `remaining_cands` (abcrules.py:3842-3847, 3872-3875).  `iter` is the
unspecified iteration order of a Python set of integers. -/
def maximinTied (solve : Program → SolveResult) (iter : List ℕ → List ℕ) (p : Profile) (committee : List ℕ) :
    Except Err (List ℕ) := do
  let scores ← maximinScores solve p committee
  let remaining := iter (p.candidates.filter (fun c => decide (c ∉ committee)))
  let highest ← pyMax (remaining.map (fun c => scores.getD c 0))
  .ok (remaining.filter (fun c => decide (highest - 1 / 10 ^ 7 ≤ scores.getD c 0)))

/-- The loop of `_maximin_support_resolute` (abcrules.py:3840-3853), without the recorded details. -/
def maximinLoop (solve : Program → SolveResult) (iter : List ℕ → List ℕ) (p : Profile) : ℕ → List ℕ → Except Err (List ℕ)
  | 0, committee => .ok committee
  | n + 1, committee => do
    let tied ← maximinTied solve iter p committee
    let next ← pyGet tied 0
    maximinLoop solve iter p n (committee ++ [next])

/-- `_maximin_support_resolute` (abcrules.py:3829-3855). -/
def maximinResolute (solve : Program → SolveResult) (iter : List ℕ → List ℕ) (p : Profile) (k : ℕ) :
    Except Err (List (List ℕ)) := do
  let committee ← maximinLoop solve iter p k []
  sortedCommittees [committee]

/-- `_maximin_support_irresolute` (abcrules.py:3858-3895). -/
def maximinIrresolute (solve : Program → SolveResult) (iter : List ℕ → List ℕ) (p : Profile) (k : ℕ) (max : Option ℕ) :
    Except Err (List (List ℕ)) := do
  let winning ← universes (fun n => decide (n.length = k)) sortNat
    (fun n => do let tied ← maximinTied solve iter p n; .ok (tied.map (fun c => n ++ [c]))) max (dfsFuel p k) [[]] []
  sortedCommittees winning

/-- `compute_maximin_support` (abcrules.py:3709-3826). -/
def computeMaximinSupport (env : Env) (solve : String → Program → SolveResult) (iter : List ℕ → List ℕ) (p : Profile) (a : Args) :
    Except Err (List (List ℕ)) := do
  let algorithm ← prologue env "maximin-support" p a
  if algorithm = "gurobi" ∨ algorithm.toList.take 4 = "mip-".toList then
    let committees ←
      if a.resolute then maximinResolute (solve algorithm) iter p a.k
      else maximinIrresolute (solve algorithm) iter p a.k a.maxNum
    sortedCommittees committees
  else .error .unknownAlgorithm

end Abc
