import Verif.Model.ReportMaximin
import Verif.Model.ReportShares
import Verif.Model.ReportMonroe

/-!
# Model of `Rule.compute` with everything that is printed
-/

namespace Abc

/-- What the texts depend on besides the outside world: Python's `str` for numbers, `output.verbosity`, and the details recorded by
floating-point runs of seq-Phragmén and Equal Shares. -/
structure Texts where
  num : ℚ → Name
  verbosity : ℤ
  phragmen : Except Err PhragDetails
  shares : Except Err (List (List ℕ) × MesDetails)

/-- `compute_thiele_method` with the ILP back ends plugged in (abcrules.py:604-730), with its output. -/
def World.thieleVerbose (w : World) (t : Texts) (scorefctId : String) (p : Profile) (a : Args) : Except Err (List Msg × List (List ℕ)) :=
  match w.env.scoreId scorefctId with
  | .ok s => computeThieleVerbose w.env t.num scorefctId (thieleSolver w.solve scorefctId (marginalFct s) p a) p a
  | .error e => computeThieleVerbose w.env t.num scorefctId (fun _ => .error e) p a

/-- The `compute_…` function chosen in `Rule.__init__` (abcrules.py:109-335) called with arguments `a`: what it prints and returns. -/
def World.runVerbose (w : World) (t : Texts) (ruleId : String) (p : Profile) (a : Args) : Except Err (List Msg × List (List ℕ)) :=
  let float := w.float ruleId p a
  if ruleId = "av" then computeSeparableVerbose w.env t.num .av p a
  else if ruleId = "sav" then computeSeparableVerbose w.env t.num .sav p a
  else if ruleId = "pav" then w.thieleVerbose t "pav" p a
  else if ruleId = "slav" then w.thieleVerbose t "slav" p a
  else if ruleId = "cc" then w.thieleVerbose t "cc" p a
  else if ruleId = "lexcc" then computeLexccVerbose w.env t.num w.solve p a
  else if ruleId = "seqpav" then computeSeqThieleVerbose w.env t.num t.verbosity "pav" p a
  else if ruleId = "revseqpav" then computeRevseqThieleVerbose w.env t.num "pav" w.revOrd p a
  else if ruleId = "seqslav" then computeSeqThieleVerbose w.env t.num t.verbosity "slav" p a
  else if ruleId = "seqcc" then computeSeqThieleVerbose w.env t.num t.verbosity "cc" p a
  else if ruleId = "seqphragmen" then computeSeqphragmenVerbose w.env t.num t.phragmen p a
  else if ruleId = "minimaxphragmen" then computeMinimaxphragmenVerbose w.env w.solve p a
  else if ruleId = "leximaxphragmen" then computeLeximaxphragmenVerbose w.env w.solve p a
  else if ruleId = "maximin-support" then computeMaximinSupportVerbose w.env t.num w.solve w.iter p a
  else if ruleId = "monroe" then
    computeMonroeVerbose w.env w.matching w.minCost (monroeSolver w.solve w.matching w.minCost p a) p a
  else if ruleId = "greedy-monroe" then computeGreedyMonroeVerbose w.env w.matching w.minCost (w.iter p.candidates) p a
  else if ruleId = "minimaxav" then computeMinimaxavVerbose w.env (minimaxavSolver w.solve p a) p a
  else if ruleId = "lexminimaxav" then computeLexminimaxavVerbose w.env w.solve p a
  else if ruleId = "rule-x" ∨ ruleId = "equal-shares" ∨ ruleId = "equal-shares-with-seqphragmen-completion" then
    computeEqualSharesVerbose w.env t.num t.shares .seqphragmen p a
  else if ruleId = "equal-shares-with-av-completion" then computeEqualSharesVerbose w.env t.num t.shares .av p a
  else if ruleId = "equal-shares-with-increment-completion" then computeEqualSharesVerbose w.env t.num t.shares .increment p a
  else if ruleId = "rule-x-without-phragmen-phase" ∨ ruleId = "equal-shares-without-phragmen-phase" ∨
      ruleId = "equal-shares-without-completion" then computeEqualSharesVerbose w.env t.num t.shares .none p a
  else if ruleId = "phragmen-enestroem" then computeEnestroemVerbose w.env float p a
  else if ruleId = "consensus-rule" then computeConsensusVerbose w.env float p a
  else if ruleId = "trivial" then computeTrivialVerbose w.env p a
  else if ruleId = "rsd" then computeRsdVerbose w.env w.shuffle w.sample p a
  else if ruleId = "eph" then computeEphVerbose w.env float (w.iter p.candidates) p a
  else if ruleId.toList.take 4 = "geom".toList then w.thieleVerbose t ruleId p a
  else if ruleId.toList.take 3 = "seq".toList then computeSeqThieleVerbose w.env t.num t.verbosity (String.ofList (ruleId.toList.drop 3)) p a
  else computeRevseqThieleVerbose w.env t.num (String.ofList (ruleId.toList.drop 6)) w.revOrd p a

end Abc
