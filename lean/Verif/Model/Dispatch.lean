import Verif.Model.ILP
import Verif.Model.ILPPhragmen
import Verif.Model.EqualShares
import Verif.Model.Budgets
import Verif.Model.GreedyMonroe
import Verif.Model.Other

/-!
# Model of `Rule.compute` and `abcrules.compute` (abcrules.py:86-382, 559-601): from a rule id to the result
-/

namespace Abc

/-- Everything outside the code base that a call depends on: installed algorithms (`env`), the ILP/LP solvers, maximum matchings
and minimum-cost flows (networkx), the iteration order of Python sets (`iter`, `revOrd`), the random generator (`shuffle`,
`sample`) and the results of floating-point runs (`float`). -/
structure World where
  env : Env
  solve : String → Program → SolveResult
  matching : List MEdge → List MEdge
  minCost : FlowNet → Except Err ℕ
  iter : List ℕ → List ℕ
  revOrd : List ℕ → ℕ → List ℕ
  shuffle : List (List ℕ) → List (List ℕ)
  sample : List ℕ → ℕ → List ℕ
  float : String → Profile → Args → Except Err (List (List ℕ))

/-- The keyword arguments of a call of `compute` (`**kwargs`, abcrules.py:559); `none` = not given.  (`max_num_of_committees`
has the default `None` everywhere.)  The keyword arguments special to one rule (`completion`, `lexicographic_tiebreaking`,
`skip_phragmen_phase`) are added in `Model/Keywords`. -/
structure Kwargs where
  algorithm : Option String := none
  resolute : Option Bool := none
  max : Option ℤ := none

/-- The arguments a `compute_…` function works with, given the defaults in its signature. -/
def Kwargs.args (kw : Kwargs) (k : ℤ) (algorithm : String) (resolute : Bool) : Args :=
  { committeesize := k, algorithm := kw.algorithm.getD algorithm, resolute := kw.resolute.getD resolute, max := kw.max }

/-- `compute_thiele_method` with the ILP back ends plugged in (abcrules.py:604-730). -/
def World.thiele (w : World) (scorefctId : String) (p : Profile) (a : Args) : Except Err (List (List ℕ)) :=
  match w.env.scoreId scorefctId with
  | .ok s => computeThieleMethod w.env scorefctId (thieleSolver w.solve scorefctId (marginalFct s) p a) p a
  | .error e => computeThieleMethod w.env scorefctId (fun _ => .error e) p a

/-- The default values of `algorithm` and `resolute` in the signature of the `compute_…` function chosen for a rule id
(`def compute_av(…, algorithm="fastest", resolute=False, …)` etc.; abcrules.py:604-4486). -/
def signatureDefaults (ruleId : String) : String × Bool :=
  if ruleId = "trivial" then ("standard", false)
  else if ruleId = "rsd" then ("standard", true)
  else if ruleId = "eph" then ("float-fractions", false)
  else if ruleId = "av" ∨ ruleId = "sav" ∨ ruleId = "pav" ∨ ruleId = "slav" ∨ ruleId = "cc" ∨ ruleId = "lexcc" ∨
      ruleId = "minimaxphragmen" ∨ ruleId = "leximaxphragmen" ∨ ruleId = "monroe" ∨ ruleId = "minimaxav" ∨
      ruleId = "lexminimaxav" ∨ ruleId.toList.take 4 = "geom".toList then ("fastest", false)
  else ("fastest", true)

/-- The `compute_…` function chosen in `Rule.__init__` (abcrules.py:109-335) called with arguments `a`; the wrappers
`compute_pav`, `compute_seqpav`, … (819-1007, 1346-1527, 1728-1786, 1967-2090) only fix the score function. -/
def World.run (w : World) (ruleId : String) (p : Profile) (a : Args) : Except Err (List (List ℕ)) :=
  let float := w.float ruleId p a
  if ruleId = "av" then computeSeparable w.env .av p a
  else if ruleId = "sav" then computeSeparable w.env .sav p a
  else if ruleId = "pav" then w.thiele "pav" p a
  else if ruleId = "slav" then w.thiele "slav" p a
  else if ruleId = "cc" then w.thiele "cc" p a
  else if ruleId = "lexcc" then computeLexcc w.env (lexccSolver w.solve p a) p a
  else if ruleId = "seqpav" then computeSeqThieleMethod w.env "pav" p a
  else if ruleId = "revseqpav" then computeRevseqThieleMethod w.env "pav" w.revOrd p a
  else if ruleId = "seqslav" then computeSeqThieleMethod w.env "slav" p a
  else if ruleId = "seqcc" then computeSeqThieleMethod w.env "cc" p a
  else if ruleId = "seqphragmen" then computeSeqphragmen w.env float p a
  else if ruleId = "minimaxphragmen" then computeMinimaxphragmen w.env w.solve p a
  else if ruleId = "leximaxphragmen" then computeLeximaxphragmen w.env w.solve p a
  else if ruleId = "maximin-support" then computeMaximinSupport w.env w.solve w.iter p a
  else if ruleId = "monroe" then
    computeMonroe w.env w.matching w.minCost (monroeSolver w.solve w.matching w.minCost p a) p a
  else if ruleId = "greedy-monroe" then computeGreedyMonroe w.env w.matching w.minCost (w.iter p.candidates) p a
  else if ruleId = "minimaxav" then computeMinimaxav w.env (minimaxavSolver w.solve p a) p a
  else if ruleId = "lexminimaxav" then computeLexminimaxav w.env (lexminimaxavSolver w.solve p a) p a
  else if ruleId = "rule-x" ∨ ruleId = "equal-shares" ∨ ruleId = "equal-shares-with-seqphragmen-completion" then
    computeEqualShares w.env float .seqphragmen p a
  else if ruleId = "equal-shares-with-av-completion" then computeEqualShares w.env float .av p a
  else if ruleId = "equal-shares-with-increment-completion" then computeEqualShares w.env float .increment p a
  else if ruleId = "rule-x-without-phragmen-phase" ∨ ruleId = "equal-shares-without-phragmen-phase" ∨
      ruleId = "equal-shares-without-completion" then computeEqualShares w.env float .none p a
  else if ruleId = "phragmen-enestroem" then computeEnestroem w.env float p a
  else if ruleId = "consensus-rule" then computeConsensus w.env float p a
  else if ruleId = "trivial" then computeTrivial w.env p a
  else if ruleId = "rsd" then computeRsd w.env w.shuffle w.sample p a
  else if ruleId = "eph" then computeEph w.env float (w.iter p.candidates) p a
  else if ruleId.toList.take 4 = "geom".toList then w.thiele ruleId p a
  else if ruleId.toList.take 3 = "seq".toList then computeSeqThieleMethod w.env (String.ofList (ruleId.toList.drop 3)) p a
  else computeRevseqThieleMethod w.env (String.ofList (ruleId.toList.drop 6)) w.revOrd p a

/-- `self.compute_fct(profile, committeesize, **kwargs)` (abcrules.py:363-382). -/
def World.computeFct (w : World) (ruleId : String) (p : Profile) (k : ℤ) (kw : Kwargs) : Except Err (List (List ℕ)) :=
  w.run ruleId p (kw.args k (signatureDefaults ruleId).1 (signatureDefaults ruleId).2)

/-- `abcrules.compute` (abcrules.py:559-601): `Rule(rule_id)`, `rule.compute(…)` and, if `result` is given, the comparison of
the outcome with `result`. -/
def compute (w : World) (ruleId : String) (p : Profile) (k : ℤ) (result : Option (List (List ℕ))) (kw : Kwargs) :
    Except Err (List (List ℕ)) := do
  let ri ← ruleInfo w.env ruleId
  let committees ← w.computeFct ruleId p k kw
  match result with
  | none => .ok committees
  | some expected => do
    let first ← pyGet ri.resoluteValues 0
    verifyExpected committees expected (kw.resolute.getD first)
    .ok committees

end Abc
