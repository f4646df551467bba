import Verif.Model.Scores

/-!
# Model of class `Rule` (abcrules.py:86-454): rule table, algorithms, parameter validation
-/

namespace Abc

/-- The environment: which algorithms are installed (`available_algorithms`, abcrules.py:505-555), how `Fraction(str)` and
`int(str)` parse. -/
structure Env where
  available : List String
  parseFraction : List Char → Option ℚ
  parseInt : List Char → Option ℤ

/-- The data of a `Rule` object used by the validation (names and `compute_fct` omitted). -/
structure RuleInfo where
  algorithms : List String
  resoluteValues : List Bool
deriving DecidableEq, Repr

/-- `Rule._THIELE_ALGORITHMS` (abcrules.py:96-103). -/
def thieleAlgorithms : List String := ["gurobi", "mip-gurobi", "mip-cbc", "branch-and-bound", "brute-force"]

/-- The three fraction algorithms (e.g. abcrules.py:187). -/
def fractionAlgorithms : List String := ["float-fractions", "gmpy2-fractions", "standard-fractions"]

/-- `_RESOLUTE_VALUES_FOR_OPTIMIZATION_BASED_RULES` (abcrules.py:104). -/
def resOpt : List Bool := [false, true]

/-- `_RESOLUTE_VALUES_FOR_SEQUENTIAL_RULES` (abcrules.py:105). -/
def resSeq : List Bool := [true, false]

/-- `Rule.__init__` without the `seq…`/`revseq…` branch (abcrules.py:109-304, 336-337). -/
def ruleInfoBase (ruleId : String) : Except Err RuleInfo :=
  if ruleId = "av" ∨ ruleId = "sav" then .ok ⟨["standard"], resOpt⟩
  else if ruleId = "pav" ∨ ruleId = "slav" then .ok ⟨thieleAlgorithms, resOpt⟩
  else if ruleId = "cc" then
    .ok ⟨["gurobi", "mip-gurobi", "ortools-cp", "branch-and-bound", "brute-force", "mip-cbc"], resOpt⟩
  else if ruleId = "lexcc" then .ok ⟨["gurobi", "brute-force"], resOpt⟩
  else if ruleId = "seqpav" ∨ ruleId = "revseqpav" ∨ ruleId = "seqslav" ∨ ruleId = "seqcc" then .ok ⟨["standard"], resSeq⟩
  else if ruleId = "seqphragmen" then .ok ⟨fractionAlgorithms, resSeq⟩
  else if ruleId = "minimaxphragmen" then .ok ⟨["gurobi", "mip-gurobi", "mip-cbc"], resOpt⟩
  else if ruleId = "leximaxphragmen" then .ok ⟨["gurobi"], resOpt⟩
  else if ruleId = "maximin-support" then .ok ⟨["gurobi", "mip-gurobi", "mip-cbc"], resSeq⟩
  else if ruleId = "monroe" then .ok ⟨["gurobi", "mip-gurobi", "mip-cbc", "ortools-cp", "brute-force"], resOpt⟩
  else if ruleId = "greedy-monroe" then .ok ⟨["standard"], [true]⟩
  else if ruleId = "minimaxav" then .ok ⟨["gurobi", "mip-gurobi", "ortools-cp", "mip-cbc", "brute-force"], resOpt⟩
  else if ruleId = "lexminimaxav" then .ok ⟨["gurobi", "brute-force"], resOpt⟩
  else if ruleId = "rule-x" ∨ ruleId = "equal-shares" ∨ ruleId = "equal-shares-with-seqphragmen-completion" then
    .ok ⟨fractionAlgorithms, resSeq⟩
  else if ruleId = "equal-shares-with-av-completion" then .ok ⟨fractionAlgorithms, resSeq⟩
  else if ruleId = "equal-shares-with-increment-completion" then .ok ⟨fractionAlgorithms, [true]⟩
  else if ruleId = "rule-x-without-phragmen-phase" ∨ ruleId = "equal-shares-without-phragmen-phase" ∨
      ruleId = "equal-shares-without-completion" then .ok ⟨fractionAlgorithms, resSeq⟩
  else if ruleId = "phragmen-enestroem" ∨ ruleId = "consensus-rule" then .ok ⟨fractionAlgorithms, resSeq⟩
  else if ruleId = "trivial" then .ok ⟨["standard"], resOpt⟩
  else if ruleId = "rsd" then .ok ⟨["standard"], [true]⟩
  else if ruleId = "eph" then .ok ⟨fractionAlgorithms, [false, true]⟩
  else if ruleId.toList.take 4 = "geom".toList then .ok ⟨thieleAlgorithms, resOpt⟩
  else .error .unknownRuleID

/-- `Rule.__init__` (abcrules.py:109-343).  In the `seq…`/`revseq…` branch (305-335) the score function is looked up first
(`UnknownScoreFunctionError` becomes `UnknownRuleIDError`, other ValueErrors propagate) and `Rule(scorefct_id)` is constructed. -/
def ruleInfo (env : Env) (ruleId : String) : Except Err RuleInfo :=
  match ruleInfoBase ruleId with
  | .ok ri => .ok ri
  | .error _ =>
    let s := ruleId.toList
    let rest? : Option (List Char) :=
      if s.take 3 = "seq".toList then some (s.drop 3)
      else if s.take 6 = "revseq".toList then some (s.drop 6)
      else none
    match rest? with
    | none => .error .unknownRuleID
    | some scorefctId =>
      match getScoreId env.parseFraction env.parseInt scorefctId with
      | .error .unknownScoreFunction => .error .unknownRuleID
      | .error e => .error e
      | .ok _ => do
        let _ ← ruleInfoBase (String.ofList scorefctId)
        .ok ⟨["standard"], resSeq⟩

/-- `Rule.fastest_available_algorithm` (abcrules.py:339-360). -/
def RuleInfo.fastest (env : Env) (ri : RuleInfo) : Except Err String :=
  match ri.algorithms.filter (fun a => decide (a ∈ env.available)) with
  | a :: _ => .ok a
  | [] => .error .noAvailableAlgorithm

/-- `Rule.verify_compute_parameters` (abcrules.py:384-454).  The type check of `max_num_of_committees` is built into `Option ℤ`. -/
def verifyComputeParameters (ri : RuleInfo) (p : Profile) (committeesize : ℤ) (algorithm : String) (resolute : Bool)
    (max : Option ℤ) : Except Err Unit :=
  if committeesize < 1 then .error .valueError
  else if committeesize > p.numCand then .error .valueError
  else if p.voters.length = 0 then .error .valueError
  else if algorithm ∉ ri.algorithms then .error .unknownAlgorithm
  else if resolute ∉ ri.resoluteValues then .error .notImplemented
  else if max.any (fun n => decide (n < 1)) then .error .valueError
  else if max.isSome ∧ resolute then .error .valueError
  else .ok ()

/-- The keyword arguments common to all `compute_…` functions. -/
structure Args where
  committeesize : ℤ
  algorithm : String := "fastest"
  resolute : Bool
  max : Option ℤ := none

/-- The common beginning of all `compute_…` functions (e.g. abcrules.py:661-670): look up the rule, resolve `"fastest"`,
validate the parameters; returns the algorithm to run. -/
def prologue (env : Env) (ruleId : String) (p : Profile) (a : Args) : Except Err String := do
  let ri ← ruleInfo env ruleId
  let algorithm ← if a.algorithm = "fastest" then ri.fastest env else .ok a.algorithm
  verifyComputeParameters ri p a.committeesize algorithm a.resolute a.max
  .ok algorithm

/-- `committeesize` as used after validation. -/
def Args.k (a : Args) : ℕ := a.committeesize.toNat

/-- `max_num_of_committees` as used after validation. -/
def Args.maxNum (a : Args) : Option ℕ := a.max.map Int.toNat

end Abc
