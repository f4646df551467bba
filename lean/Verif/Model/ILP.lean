import Verif.Model.Optimal

/-!
# Model of the (integer) linear programs: `abcrules_gurobi.py`, `abcrules_mip.py`, `abcrules_ortools.py`

A program is data (variables with bounds, linear constraints, linear objective to be maximised); a solver is a function from
programs to results.  All numbers are exact rationals (`float(marginal_scorefct(x))` and the solver's own tolerances are
idealised); the tolerances that the *code* uses (`ACCURACY`, `CMP_ACCURACY`, `0.9`) are kept.
-/

namespace Abc

/-- The variables used by the programs.  Python indexes some of them by `Voter` objects, which are hashed by identity; here they
are indexed by the position of the voter. -/
inductive IVar
  | cand (c : ℕ)            -- `in_committee[c]`
  | utility (i x : ℕ)       -- `utility[(voter, x)]`
  | partition (c i : ℕ)     -- `partition[(cand, voter)]`
  | load (i c : ℕ)          -- `load[(voter, cand)]`
  | boundFor (i j : ℕ)      -- `loadbound_constraint[(i, j)]`
  | atMost (i d : ℕ)        -- `voteratmostdistances[(i, dist)]`
  | assigned (i c : ℕ)      -- `f[vi, cand]`
  | satisfied (i : ℕ)       -- `satisfaction[voter_id]`
  | value                   -- the scalar `satisfaction`, `loadbound`, `max_hamming_distance`, `minimum`
  | inSet (i : ℕ)           -- checkers (properties.py): voter `i` belongs to the set
  | size                    -- checkers: the integers `ell`, `beta`
  | inUnion (c : ℕ)         -- `in_union[cand]`
  | extremum (c i : ℕ)      -- stable priceability: `extremum`, for candidate `c` and voter `i`
  | rest (c i : ℕ)          -- stable priceability: `r`
  | maxPayment (c i : ℕ)    -- stable priceability: `max_Payment`
deriving DecidableEq, Repr

/-- A linear expression. -/
structure LinExp where
  terms : List (ℚ × IVar)
  const : ℚ
deriving DecidableEq, Repr

namespace LinExp

/-- A variable. -/
def var (v : IVar) : LinExp := ⟨[(1, v)], 0⟩

/-- A number. -/
def num (q : ℚ) : LinExp := ⟨[], q⟩

/-- `e + f`. -/
def add (e f : LinExp) : LinExp := ⟨e.terms ++ f.terms, e.const + f.const⟩

/-- `q * e`. -/
def scale (q : ℚ) (e : LinExp) : LinExp := ⟨e.terms.map (fun t => (q * t.1, t.2)), q * e.const⟩

/-- `e - f`. -/
def sub (e f : LinExp) : LinExp := add e (scale (-1) f)

/-- `quicksum` / `xsum` / `sum`. -/
def sum (l : List LinExp) : LinExp := l.foldr add (num 0)

/-- The value of an expression. -/
def eval (x : IVar → ℚ) (e : LinExp) : ℚ := (e.terms.map (fun t => t.1 * x t.2)).sum + e.const

end LinExp

/-- `<=`, `>=`, `==`. -/
inductive Rel
  | le | ge | eq
deriving DecidableEq, Repr

/-- A linear constraint; with `guard = some b` it is enforced only if `b = 1` (`(b == 1) >> (…)` in Gurobi, `OnlyEnforceIf(b)` in
OR-Tools). -/
structure Constr where
  lhs : LinExp
  rel : Rel
  rhs : LinExp
  guard : Option IVar := none
deriving DecidableEq, Repr

/-- A declared variable: bounds and integrality. -/
structure VarDecl where
  v : IVar
  integer : Bool
  lb : ℚ := 0
  ub : Option ℚ := none
deriving DecidableEq, Repr

/-- A Boolean variable. -/
def binaryVar (v : IVar) : VarDecl := { v := v, integer := true, lb := 0, ub := some 1 }

/-- A program; the objective is always maximised. -/
structure Program where
  vars : List VarDecl
  constrs : List Constr
  obj : LinExp
deriving DecidableEq, Repr

/-- `model.addConstr(…)` / `model += …` / `model.Add(…)`. -/
def Program.addConstr (P : Program) (c : Constr) : Program := { P with constrs := P.constrs ++ [c] }

/-- What a solver reports: status OPTIMAL with the values of the variables, status INFEASIBLE, or any other status. -/
inductive SolveResult
  | optimal (x : IVar → ℚ)
  | infeasible
  | other

/-- `ACCURACY` (abcrules_gurobi.py:13, abcrules_mip.py:11). -/
def accuracy : ℚ := 1 / 10 ^ 8

/-- `CMP_ACCURACY` (abcrules_gurobi.py:14, abcrules_mip.py:12). -/
def cmpAccuracy : ℚ := 10 * accuracy

/-! ## The enumeration loops -/

/-- The constraint that excludes a committee already found (abcrules_gurobi.py:138, abcrules_mip.py:163,
abcrules_ortools.py:114). -/
def excludeConstr (k : ℕ) (committee : List ℕ) : Constr :=
  { lhs := LinExp.sum (committee.map (fun c => .var (.cand c))), rel := .le, rhs := .num ((k : ℚ) - 1) }

/-- `objective_value`: the exact score of the committee, or the solver's objective value when there is no
`committeescorefct` (abcrules_gurobi.py:109-112, abcrules_mip.py:133-136, abcrules_ortools.py:92). -/
def objectiveValue (score : Option (List ℕ → Except Err ℚ)) (P : Program) (x : IVar → ℚ) (committee : List ℕ) : Except Err ℚ :=
  match score with
  | none => .ok (P.obj.eval x)
  | some f => f committee

/-- The tolerance used in comparisons with `maxscore` (abcrules_gurobi.py:114-128, abcrules_mip.py:140-150). -/
def cmpTol (score : Option (List ℕ → Except Err ℚ)) : ℚ := if score.isSome then 0 else cmpAccuracy

/-- The `while True` loops of `_optimize_rule_gurobi` (abcrules_gurobi.py:78-140), `_optimize_rule_mip`
(abcrules_mip.py:99-165, always with `reuse_model=True`) and `_optimize_rule_ortools` (abcrules_ortools.py:68-116).
`thr` is 0.9 for the first two and 1 for OR-Tools.  Returns `committees, maxscore`. -/
def optLoop (solve : Program → SolveResult) (thr : ℚ) (score : Option (List ℕ → Except Err ℚ)) (p : Profile) (k : ℕ)
    (resolute : Bool) (max : Option ℕ) :
    ℕ → Program → List (List ℕ) → Option ℚ → Except Err (List (List ℕ) × ℚ)
  | 0, _, _, _ => .error .outOfFuel
  | fuel + 1, P, committees, maxscore =>
    match solve P with
    | .other => .error .runtimeError
    | .infeasible => if committees.length = 0 then .error .runtimeError else .ok (committees, maxscore.getD 0)
    | .optimal x =>
      let committee := p.candidates.filter (fun c => decide (thr ≤ x (.cand c)))
      if committee.length ≠ k then .error .runtimeError
      else do
        let v ← objectiveValue score P x committee
        if maxscore.any (fun m => decide (m + cmpTol score < v)) then .error .runtimeError
        else if maxscore.any (fun m => decide (v < m - cmpTol score)) then .ok (committees, maxscore.getD 0)
        else if resolute then .ok (committees ++ [committee], maxscore.getD v)
        else if max.any (fun n => decide (n ≤ (committees ++ [committee]).length)) then
          .ok (committees ++ [committee], maxscore.getD v)
        else
          optLoop solve thr score p k resolute max fuel (P.addConstr (excludeConstr k committee))
            (committees ++ [committee]) (some (maxscore.getD v))

/-- `_optimize_rule_gurobi` / `_optimize_rule_mip` / `_optimize_rule_ortools`: the fuel is one more than the number of
committees. -/
def optimizeRule (solve : Program → SolveResult) (thr : ℚ) (score : Option (List ℕ → Except Err ℚ)) (p : Profile) (k : ℕ)
    (resolute : Bool) (max : Option ℕ) (P : Program) : Except Err (List (List ℕ) × ℚ) :=
  optLoop solve thr score p k resolute max ((combinations p.candidates k).length + 1) P [] none

/-- The threshold 0.9 (abcrules_gurobi.py:96, abcrules_mip.py:121). -/
def thrMip : ℚ := 9 / 10

/-- The threshold of OR-Tools (abcrules_ortools.py:85). -/
def thrCp : ℚ := 1

/-! ## Common parts of the programs -/

/-- `in_committee` (abcrules_gurobi.py:73, abcrules_mip.py:61-64, abcrules_ortools.py:59). -/
def candVars (p : Profile) : List VarDecl := p.candidates.map (fun c => binaryVar (.cand c))

/-- `Σ in_committee[cand] for cand in cands`. -/
def candSum (cands : List ℕ) : LinExp := LinExp.sum (cands.map (fun c => .var (.cand c)))

/-- The committee has the required size (e.g. abcrules_gurobi.py:172). -/
def sizeConstr (p : Profile) (k : ℕ) : Constr := { lhs := candSum p.candidates, rel := .eq, rhs := .num k }

/-! ## Thiele methods -/

/-- `max_in_committee[voter]` (abcrules_gurobi.py:167, abcrules_mip.py:191). -/
def maxInCommittee (k : ℕ) (v : Voter) : ℕ := min v.approved.length k

/-- The variables `utility` (abcrules_gurobi.py:164-169, 229-234, abcrules_mip.py:190-193). -/
def utilityVars (p : Profile) (k : ℕ) : List VarDecl :=
  p.voters.zipIdx.flatMap (fun vi => (List.range (maxInCommittee k vi.1)).map (fun x => binaryVar (.utility vi.2 (x + 1))))

/-- Utilities are consistent with the committee (abcrules_gurobi.py:175-179, 240-244, abcrules_mip.py:199-202). -/
def utilityConstrs (p : Profile) (k : ℕ) : List Constr :=
  p.voters.zipIdx.map (fun vi =>
    { lhs := LinExp.sum ((List.range (maxInCommittee k vi.1)).map (fun x => .var (.utility vi.2 (x + 1))))
      rel := .eq
      rhs := candSum vi.1.approved })

/-- `Σ f(x) * voter.weight * utility[(voter, x)]` (abcrules_gurobi.py:183-187, 249-253, 259-263, abcrules_mip.py:206-210). -/
def utilityObj (f : ℕ → ℚ) (p : Profile) (k : ℕ) : LinExp :=
  LinExp.sum (p.voters.zipIdx.flatMap (fun vi => (List.range (maxInCommittee k vi.1)).map (fun x =>
    LinExp.scale (f (x + 1) * vi.1.weight) (.var (.utility vi.2 (x + 1))))))

/-- The program of `_gurobi_thiele_methods` and `_mip_thiele_methods` (abcrules_gurobi.py:150-189, abcrules_mip.py:176-211). -/
def thieleProgram (f : ℕ → ℚ) (p : Profile) (k : ℕ) : Program :=
  { vars := candVars p ++ utilityVars p k
    constrs := sizeConstr p k :: utilityConstrs p k
    obj := utilityObj f p k }

/-- `score_values` (abcrules_gurobi.py:193, abcrules_mip.py:215). -/
def scoreValues (f : ℕ → ℚ) (k : ℕ) : List ℚ := (List.range k).map (fun x => f (x + 1))

/-- `_gurobi_thiele_methods` (abcrules_gurobi.py:143-215), `_mip_thiele_methods` (abcrules_mip.py:168-238): the monotonicity check,
`min` of the positive values (ValueError if there are none), the loop with the exact score. -/
def ilpThiele (solve : Program → SolveResult) (f : ℕ → ℚ) (p : Profile) (k : ℕ) (resolute : Bool) (max : Option ℕ) :
    Except Err (List (List ℕ)) :=
  if ¬ ((scoreValues f k).zip (scoreValues f k).tail).all
      (fun ab => decide (ab.1 > ab.2 ∨ (ab.1 = ab.2 ∧ ab.2 = 0))) then .error .valueError
  else do
    let _ ← pyMin ((scoreValues f k).filter (fun q => decide (q > 0)))
    let r ← optimizeRule solve thrMip (some (fun W => .ok (thieleScore f p W))) p k resolute max (thieleProgram f p k)
    sortedCommittees r.1

/-- The program of `_ortools_cc` (abcrules_ortools.py:126-149); the two objectives (unit weights or not) agree when all weights are
1, so only the second is written. -/
def ccProgram (p : Profile) (k : ℕ) : Program :=
  { vars := candVars p ++ (List.range p.voters.length).map (fun i => binaryVar (.satisfied i))
    constrs := sizeConstr p k :: p.voters.zipIdx.map (fun vi =>
      { lhs := .var (.satisfied vi.2), rel := .le, rhs := candSum vi.1.approved })
    obj := LinExp.sum (p.voters.zipIdx.map (fun vi => LinExp.scale vi.1.weight (.var (.satisfied vi.2)))) }

/-- `_ortools_cc` (abcrules_ortools.py:119-166).  `isinstance(voter.weight, int)` is modelled as "the weight is an integer"
(an integral `Fraction` also raises TypeError in Python). -/
def ortoolsCC (solve : Program → SolveResult) (p : Profile) (k : ℕ) (resolute : Bool) (max : Option ℕ) :
    Except Err (List (List ℕ)) :=
  if ¬ p.voters.all (fun v => decide (v.weight.den = 1)) then .error .typeError
  else do
    let r ← optimizeRule solve thrCp (some (fun W => .ok (thieleScore (marginalFct .cc) p W))) p k resolute max (ccProgram p k)
    sortedCommittees r.1

/-- The branches of `compute_thiele_method` that call a solver (abcrules.py:672-679, 696-713). -/
def thieleSolver (solve : String → Program → SolveResult) (scorefctId : String) (f : ℕ → ℚ) (p : Profile) (a : Args) : Solver :=
  fun algorithm =>
    if algorithm = "gurobi" ∨ algorithm.toList.take 4 = "mip-".toList then
      ilpThiele (solve algorithm) f p a.k a.resolute a.maxNum
    else if algorithm = "ortools-cp" ∧ scorefctId = "cc" then ortoolsCC (solve algorithm) p a.k a.resolute a.maxNum
    else .error .unknownAlgorithm

/-! ## lex-CC -/

/-- The program of `_gurobi_lexcc` in iteration `sats.length` (abcrules_gurobi.py:219-265). -/
def lexccProgram (p : Profile) (k : ℕ) (sats : List ℚ) : Program :=
  { vars := candVars p ++ utilityVars p k
    constrs := (sizeConstr p k :: utilityConstrs p k) ++ sats.zipIdx.map (fun si =>
      { lhs := utilityObj (marginalFct (.atleast ((si.2 : ℤ) + 1))) p k, rel := .ge, rhs := .num (si.1 - accuracy) })
    obj := utilityObj (marginalFct (.atleast ((sats.length : ℤ) + 1))) p k }

/-- The exact score used in iteration `i = 1, 2, …` (abcrules_gurobi.py:279, 292). -/
def atLeastScore (p : Profile) (i : ℕ) (W : List ℕ) : ℚ := thieleScore (marginalFct (.atleast (i : ℤ))) p W

/-- The `for iteration in range(1, committeesize)` loop (abcrules_gurobi.py:268-283). -/
def lexccLoop (solve : Program → SolveResult) (p : Profile) (k : ℕ) : ℕ → List ℚ → Except Err (List ℚ)
  | 0, sats => .ok sats
  | n + 1, sats => do
    let r ← optimizeRule solve thrMip (some (fun W => .ok (atLeastScore p (sats.length + 1) W))) p k true none
      (lexccProgram p k sats)
    let c ← pyGet r.1 0
    lexccLoop solve p k n (sats ++ [atLeastScore p (sats.length + 1) c])

/-- `_gurobi_lexcc` (abcrules_gurobi.py:218-298): committees and `opt_score_vector`. -/
def gurobiLexcc (solve : Program → SolveResult) (p : Profile) (k : ℕ) (resolute : Bool) (max : Option ℕ) :
    Except Err (List (List ℕ) × List ℚ) := do
  let sats ← lexccLoop solve p k (k - 1) []
  let r ← optimizeRule solve thrMip (some (fun W => .ok (atLeastScore p k W))) p k resolute max (lexccProgram p k sats)
  let c ← pyGet r.1 0
  let cs ← sortedCommittees r.1
  .ok (cs, sats ++ [atLeastScore p k c])

/-- The branches of `compute_lexcc` that call a solver (abcrules.py:1088-1104); `mip-…` is not in the list of algorithms. -/
def lexccSolver (solve : String → Program → SolveResult) (p : Profile) (a : Args) : Solver :=
  fun algorithm =>
    if algorithm = "gurobi" then (do let r ← gurobiLexcc (solve algorithm) p a.k a.resolute a.maxNum; .ok r.1)
    else .error .unknownAlgorithm

/-! ## Monroe -/

/-- `Σ_j partition[(cand, j)]`. -/
def partitionSum (p : Profile) (c : ℕ) : LinExp :=
  LinExp.sum ((List.range p.voters.length).map (fun j => .var (.partition c j)))

/-- Every voter is in exactly one set of the partition (abcrules_gurobi.py:316-318, abcrules_mip.py:255-257,
abcrules_ortools.py:190-192). -/
def partitionConstrs (p : Profile) : List Constr :=
  (List.range p.voters.length).map (fun i =>
    { lhs := LinExp.sum (p.candidates.map (fun c => .var (.partition c i))), rel := .eq, rhs := .num 1 })

/-- The sum in the constraint for `satisfaction` (abcrules_gurobi.py:344-348, abcrules_mip.py:279-283,
abcrules_ortools.py:227-231). -/
def monroeSat (p : Profile) : LinExp :=
  LinExp.sum (p.voters.zipIdx.flatMap (fun vi => p.candidates.map (fun c =>
    LinExp.scale (if c ∈ vi.1.approved then 1 else 0) (.var (.partition c vi.2)))))

/-- The constraint for `satisfaction`. -/
def monroeSatConstr (p : Profile) : Constr := { lhs := monroeSat p, rel := .ge, rhs := .var .value }

/-- The variable `satisfaction` (abcrules_gurobi.py:306, abcrules_mip.py:246, abcrules_ortools.py:179). -/
def monroeValueVar (p : Profile) : VarDecl := { v := .value, integer := true, lb := 0, ub := some p.voters.length }

/-- `num_voters // committeesize` and `num_voters // committeesize + bool(num_voters % committeesize)`. -/
def districtLow (p : Profile) (k : ℕ) : ℕ := p.voters.length / k

/-- See `districtLow`. -/
def districtHigh (p : Profile) (k : ℕ) : ℕ := p.voters.length / k + (if p.voters.length % k ≠ 0 then 1 else 0)

/-- The program of `_gurobi_monroe` and `_mip_monroe` (abcrules_gurobi.py:302-353, abcrules_mip.py:242-288).  In the Python-MIP version
`partition` is binary, in the Gurobi version a non-negative integer. -/
def monroeProgram (binary : Bool) (p : Profile) (k : ℕ) : Program :=
  { vars := candVars p ++ monroeValueVar p :: p.candidates.flatMap (fun c => (List.range p.voters.length).map (fun j =>
      if binary then binaryVar (.partition c j) else { v := .partition c j, integer := true, lb := 0 }))
    constrs := sizeConstr p k :: partitionConstrs p ++ p.candidates.flatMap (fun c =>
      [{ lhs := partitionSum p c, rel := .ge,
         rhs := LinExp.sub (.num (districtLow p k)) (LinExp.scale p.voters.length (LinExp.sub (.num 1) (.var (.cand c)))) },
       { lhs := partitionSum p c, rel := .le,
         rhs := LinExp.add (.num (districtHigh p k)) (LinExp.scale p.voters.length (LinExp.sub (.num 1) (.var (.cand c)))) },
       { lhs := partitionSum p c, rel := .le, rhs := LinExp.scale p.voters.length (.var (.cand c)) }])
      ++ [monroeSatConstr p]
    obj := .var .value }

/-- The program of `_ortools_monroe` (abcrules_ortools.py:176-236). -/
def monroeProgramCp (p : Profile) (k : ℕ) : Program :=
  { vars := candVars p ++ monroeValueVar p :: p.candidates.flatMap (fun c => (List.range p.voters.length).map (fun j =>
      binaryVar (.partition c j)))
    constrs := sizeConstr p k :: partitionConstrs p ++ p.candidates.flatMap (fun c =>
      [{ lhs := partitionSum p c, rel := .ge, rhs := .num (districtLow p k), guard := some (.cand c) },
       { lhs := partitionSum p c, rel := .le, rhs := .num (districtHigh p k), guard := some (.cand c) }] ++
      (List.range p.voters.length).map (fun j => { lhs := .var (.partition c j), rel := .le, rhs := .var (.cand c) }))
      ++ [monroeSatConstr p]
    obj := .var .value }

/-- `scores.monroescore` as `committeescorefct` (abcrules_gurobi.py:362). -/
def monroeScoreQ (matching : List MEdge → List MEdge) (minCost : FlowNet → Except Err ℕ) (p : Profile) (W : List ℕ) :
    Except Err ℚ := do
  let s ← monroescore matching minCost p W
  .ok (s : ℚ)

/-- `_gurobi_monroe`, `_mip_monroe`, `_ortools_monroe` and the branches of `compute_monroe` that call them (abcrules.py:2433-2454,
2462-2463). -/
def monroeSolver (solve : String → Program → SolveResult) (matching : List MEdge → List MEdge)
    (minCost : FlowNet → Except Err ℕ) (p : Profile) (a : Args) : Solver :=
  fun algorithm =>
    if algorithm = "gurobi" then do
      let r ← optimizeRule (solve algorithm) thrMip (some (monroeScoreQ matching minCost p)) p a.k a.resolute a.maxNum
        (monroeProgram false p a.k)
      sortedCommittees r.1
    else if algorithm = "ortools-cp" then do
      let r ← optimizeRule (solve algorithm) thrCp (some (monroeScoreQ matching minCost p)) p a.k a.resolute a.maxNum
        (monroeProgramCp p a.k)
      sortedCommittees r.1
    else if algorithm.toList.take 4 = "mip-".toList then do
      let r ← optimizeRule (solve algorithm) thrMip (some (monroeScoreQ matching minCost p)) p a.k a.resolute a.maxNum
        (monroeProgram true p a.k)
      sortedCommittees r.1
    else .error .unknownAlgorithm

/-! ## Minimax AV -/

/-- The Hamming distance as a linear expression (abcrules_gurobi.py:624-630, 670-679, abcrules_mip.py:451-456,
abcrules_ortools.py:263-269). -/
def hammingExp (p : Profile) (v : Voter) : LinExp :=
  LinExp.add (LinExp.sum (v.approved.map (fun c => LinExp.sub (.num 1) (.var (.cand c)))))
    (candSum (p.candidates.filter (fun c => decide (c ∉ v.approved))))

/-- The program of `_gurobi_minimaxav`, `_mip_minimaxav`, `_ortools_minimaxav` (abcrules_gurobi.py:611-634, abcrules_mip.py:440-459,
abcrules_ortools.py:257-273). -/
def minimaxavProgram (p : Profile) (k : ℕ) : Program :=
  { vars := candVars p ++ [{ v := .value, integer := true, lb := 0, ub := some p.numCand }]
    constrs := sizeConstr p k :: p.voters.map (fun v => { lhs := .var .value, rel := .ge, rhs := hammingExp p v })
    obj := LinExp.scale (-1) (.var .value) }

/-- `-scores.minimaxav_score(profile, committee)`. -/
def minimaxavScoreQ (p : Profile) (W : List ℕ) : ℚ := -(minimaxavScore p W : ℚ)

/-- `_gurobi_minimaxav`, `_mip_minimaxav`, `_ortools_minimaxav` (abcrules_gurobi.py:610-646, abcrules_mip.py:439-472,
abcrules_ortools.py:250-285). -/
def ilpMinimaxav (solve : Program → SolveResult) (thr : ℚ) (p : Profile) (k : ℕ) (resolute : Bool) (max : Option ℕ) :
    Except Err (List (List ℕ)) := do
  let r ← optimizeRule solve thr (some (fun W => .ok (minimaxavScoreQ p W))) p k resolute max (minimaxavProgram p k)
  sortedCommittees r.1

/-- The branches of `compute_minimaxav` that call a solver (abcrules.py:2156-2178, 2186-2187). -/
def minimaxavSolver (solve : String → Program → SolveResult) (p : Profile) (a : Args) : Solver :=
  fun algorithm =>
    if algorithm = "gurobi" then ilpMinimaxav (solve algorithm) thrMip p a.k a.resolute a.maxNum
    else if algorithm = "ortools-cp" then ilpMinimaxav (solve algorithm) thrCp p a.k a.resolute a.maxNum
    else if algorithm.toList.take 4 = "mip-".toList then ilpMinimaxav (solve algorithm) thrMip p a.k a.resolute a.maxNum
    else .error .unknownAlgorithm

/-! ## lex-Minimax-AV -/

/-- `voteratmostdistances[(i, dist)]` after the loop abcrules_gurobi.py:653-663: the constant 0, the constant 1, or the variable
(the last assignment wins). -/
def atMostExp (k : ℕ) (v : Voter) (i d : ℕ) : LinExp :=
  if (d : ℤ) < |(v.approved.length : ℤ) - k| then .num 0
  else if v.approved.length + k ≤ d then .num 1
  else .var (.atMost i d)

/-- `isinstance(voteratmostdistances[(i, dist)], int)` (abcrules_gurobi.py:672). -/
def atMostIsConst (k : ℕ) (v : Voter) (d : ℕ) : Bool :=
  decide ((d : ℤ) < |(v.approved.length : ℤ) - k|) || decide (v.approved.length + k ≤ d)

/-- `Σ_i voteratmostdistances[(i, d)]`. -/
def atMostSum (p : Profile) (k d : ℕ) : LinExp := LinExp.sum (p.voters.zipIdx.map (fun vi => atMostExp k vi.1 vi.2 d))

/-- The program of `_gurobi_lexminimaxav` (abcrules_gurobi.py:650-696); `hdc` lists the pairs (distance, number of voters) in
`hammingdistance_constraints`, `d` is `new_distance`. -/
def lexminimaxavProgram (p : Profile) (k : ℕ) (hdc : List (ℕ × ℕ)) (d : ℕ) : Program :=
  { vars := candVars p ++ p.voters.zipIdx.flatMap (fun vi => (List.range (p.numCand + 1)).map (fun d =>
      binaryVar (.atMost vi.2 d)))
    constrs := sizeConstr p k :: p.voters.zipIdx.flatMap (fun vi =>
        ((List.range (p.numCand + 1)).filter (fun d => ! atMostIsConst k vi.1 d)).map (fun (d : ℕ) =>
          { lhs := hammingExp p vi.1, rel := .le, rhs := .num (d : ℚ), guard := some (.atMost vi.2 d) }))
      ++ hdc.map (fun dn => { lhs := atMostSum p k dn.1, rel := .ge, rhs := .num ((dn.2 : ℚ) - accuracy) })
    obj := atMostSum p k d }

/-- The exact score: number of voters with distance at most `d` (abcrules_gurobi.py:722-724). -/
def upperBoundedQ (p : Profile) (d : ℕ) (W : List ℕ) : ℚ := (numVotersUpperBounded (d : ℤ) p W : ℚ)

/-- The loop `for distance in range(maxdistance - 1, -1, -1)` (abcrules_gurobi.py:705-729); the first argument is `distance + 1`, the
second the committees of the previous iteration. -/
def lexminimaxavLoop (solve : Program → SolveResult) (p : Profile) (k : ℕ) (resolute : Bool) (max : Option ℕ) :
    ℕ → List (List ℕ) → List (ℕ × ℕ) → Except Err (List (List ℕ))
  | 0, committees, _ => .ok committees
  | distance + 1, _, hdc => do
    let r ← optimizeRule solve thrMip (some (fun W => .ok (upperBoundedQ p distance W))) p k
      (if distance = 0 then resolute else true) (if distance = 0 then max else none) (lexminimaxavProgram p k hdc distance)
    let c ← pyGet r.1 0
    lexminimaxavLoop solve p k resolute max distance r.1 (hdc ++ [(distance, numVotersUpperBounded (distance : ℤ) p c)])

/-- `_gurobi_lexminimaxav` (abcrules_gurobi.py:649-735); the returned `detailed_info` needs `committees[0]`. -/
def gurobiLexminimaxav (solve : Program → SolveResult) (p : Profile) (k : ℕ) (resolute : Bool) (max : Option ℕ) :
    Except Err (List (List ℕ)) := do
  let base ← ilpMinimaxav solve thrMip p k true none
  let c ← pyGet base 0
  let maxdistance := minimaxavScore p c
  let committees ← lexminimaxavLoop solve p k resolute max maxdistance base [(maxdistance, p.voters.length)]
  let committees ← sortedCommittees committees
  let _ ← pyGet committees 0
  .ok committees

/-- The branches of `compute_lexminimaxav` that call a solver (abcrules.py:2312-2320). -/
def lexminimaxavSolver (solve : String → Program → SolveResult) (p : Profile) (a : Args) : Solver :=
  fun algorithm =>
    if algorithm = "gurobi" then gurobiLexminimaxav (solve algorithm) p a.k a.resolute a.maxNum
    else .error .unknownAlgorithm

end Abc
