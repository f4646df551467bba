import Verif.Model.Dispatch
import Verif.Props.EqualSharesAxioms
import Verif.Props.ILPLexcc
import Verif.Props.RevSeqThiele
import Verif.Props.ILPPhragmen
import Verif.Props.Other
import Verif.Spec.Monroe

/-!
# What every rule id of `abcrules.compute` stands for
-/

namespace Abc

open Spec

/-- All arguments of a call given explicitly as keyword arguments. -/
def Args.kw (a : Args) : Kwargs := ⟨some a.algorithm, some a.resolute, a.max⟩

/-- The outside world keeps its promises: solvers solve exactly, matchings are maximum, flows have minimum cost, iterating over a
set lists its members, shuffling permutes, samples are samples.  Iterating over equal sets gives the same order
(`canonical`; needed for reverse sequential Thiele methods, see C28). -/
structure World.Exact (w : World) : Prop where
  solve : ∀ alg, ExactSolver (w.solve alg)
  matching : ExactMatching w.matching
  minCost : ExactMinCost w.minCost
  iter : ∀ l, (w.iter l).Perm l
  listing : Listing w.revOrd
  canonical : ∀ W c W' c', c ∈ W → c' ∈ W' → W.Nodup → W'.Nodup → (W.erase c).Perm (W'.erase c') →
    w.revOrd W c = w.revOrd W' c'
  shuffle : ∀ l, (w.shuffle l).Perm l
  sample : IsSample w.sample

namespace Spec

/-- Equal Shares with increment completion (smallest-index tiebreaking): approval voting if fewer than `k` candidates are
approved; otherwise the outcome for the smallest budget `inc / total` (`inc = k, k + 1, …`) that elects `k` candidates. -/
def IncrementWinner (p : Profile) (k : ℕ) (A : Finset ℕ) : Prop :=
  ((approvedSet p).card < k ∧ SepOpt .av p k A ∧ ∀ i, appr p i ⊆ A) ∨
  (k ≤ (approvedSet p).card ∧ ∃ inc W, k ≤ inc ∧ FirstOutcome p k (inc / total p) W ∧ W.length = k ∧ W.toFinset = A ∧
    ∀ j, k ≤ j → j < inc → ∃ V, FirstOutcome p k (j / total p) V ∧ V.length < k)

/-- Random Serial Dictator: the seats are given away by the voters in some order; seats still free are filled arbitrarily. -/
def RsdOutcome (p : Profile) (k : ℕ) (A : Finset ℕ) : Prop :=
  IsCommittee p k A ∧ ∃ As, As.Perm (p.voters.map Voter.A) ∧ dictateAll k As ⊆ A

/-- `Elects w p k alg ruleId S`: for committees of size `k` and with algorithm `alg`, the rule `ruleId` has the winning
committees `S`.  The premises are the conditions under which the code is proved to elect them (all weights ≥ 1 is sufficient
for those on weights); the fraction rules are covered for exact arithmetic. -/
inductive Elects (w : World) (p : Profile) (k : ℕ) (alg : String) : String → (Finset ℕ → Prop) → Prop
  | av : Elects w p k alg "av" (SepOpt .av p k)
  | sav : Elects w p k alg "sav" (SepOpt .sav p k)
  /-- `pav`, `slav`, `cc` and `geom<base>` -/
  | thiele {sid : String} {s : ScoreId} : w.env.scoreId sid = .ok s →
      (s = .pav ∨ s = .slav ∨ s = .cc ∨
        ∃ b, s = .geom b ∧ (1 < b ∨ (alg = "branch-and-bound" ∧ 1 ≤ b) ∨ (alg = "brute-force" ∧ 0 < b))) →
      (alg = "ortools-cp" → IntegerWeights p) → Elects w p k alg sid (ThieleOpt (marginalFct s) p k)
  | lexcc : (alg = "gurobi" → Granular p) → Elects w p k alg "lexcc" (LexccOpt p k)
  /-- `seqpav`, `seqslav`, `seqcc`, `seqav`, `seqgeom<base>` -/
  | seqThiele {sid : String} {s : ScoreId} : w.env.scoreId sid = .ok s → (∀ i, 0 ≤ marginalFct s i) →
      Elects w p k alg ("seq" ++ sid) (SeqThieleWinner (marginalFct s) p k)
  /-- `revseqpav`, `revseqslav`, `revseqcc`, `revseqav`, `revseqgeom<base>` -/
  | revseqThiele {sid : String} {s : ScoreId} : w.env.scoreId sid = .ok s →
      Elects w p k alg ("revseq" ++ sid) (fun A => RevRun (marginalFct s) p A ∧ A.card = k)
  | seqphragmen : ApproversAtLeastOne p → ExactAlg w.env alg →
      Elects w p k alg "seqphragmen" (RunWinner (PhragBest p) (phragUpd p) (fun _ => 0) k)
  | minimaxphragmen : IntegerWeights p → total p ≤ 3162 → k ≤ (approvedSet p).card →
      Elects w p k alg "minimaxphragmen" (MinimaxPhragmenOpt 0 p k)
  | minimaxphragmenTol : (∀ v ∈ p.voters, 1 ≤ v.weight) → k ≤ (approvedSet p).card →
      Elects w p k alg "minimaxphragmen" (MinimaxPhragmenOpt (1 / 10 ^ 7) p k)
  | leximaxphragmen : (∀ v ∈ p.voters, 1 ≤ v.weight) → k ≤ (approvedSet p).card →
      Elects w p k alg "leximaxphragmen" (LevelWinner (1 / 10 ^ 8) (1 / 10 ^ 7) (1 / 10 ^ 7) p k)
  | maximinSupport : IntegerWeights p → k ≤ 3162 → Elects w p k alg "maximin-support" (MaximinWinner 0 p k)
  | maximinSupportTol : Elects w p k alg "maximin-support" (MaximinWinner (1 / 10 ^ 7) p k)
  | monroe : (∀ v ∈ p.voters, v.weight = 1) → Elects w p k alg "monroe" (MonroeOpt p k)
  | greedyMonroe : (∀ v ∈ p.voters, v.weight = 1) →
      Elects w p k alg "greedy-monroe" (RunWinner (GMBest p) (gmUpd p k) [] k)
  | minimaxav : Elects w p k alg "minimaxav" (MinimaxavOpt p k)
  | lexminimaxav : (∀ v ∈ p.voters, v.weight = 1) → Elects w p k alg "lexminimaxav" (LexminimaxavOpt p k)
  | equalShares {ruleId : String} : ruleId ∈ ["rule-x", "equal-shares", "equal-shares-with-seqphragmen-completion"] →
      ApproversAtLeastOne p → ExactAlg w.env alg → Elects w p k alg ruleId (MESWinner p k .seqphragmen (k / total p))
  | equalSharesAv : ExactAlg w.env alg →
      Elects w p k alg "equal-shares-with-av-completion" (MESWinner p k .av (k / total p))
  | equalSharesIncrement : ApproversAtLeastOne p → ExactAlg w.env alg →
      Elects w p k alg "equal-shares-with-increment-completion" (IncrementWinner p k)
  | equalSharesNone {ruleId : String} : ruleId ∈ ["rule-x-without-phragmen-phase", "equal-shares-without-phragmen-phase",
      "equal-shares-without-completion"] → ExactAlg w.env alg →
      Elects w p k alg ruleId (MESWinner p k .none (k / total p))
  | enestroem : ExactAlg w.env alg → Elects w p k alg "phragmen-enestroem" (EnestroemWinner p k)
  | consensus : ExactAlg w.env alg → Elects w p k alg "consensus-rule" (ConsensusWinner p k)
  | trivial : Elects w p k alg "trivial" (IsCommittee p k)
  | rsd : (∀ v ∈ p.voters, v.weight = 1) → Elects w p k alg "rsd" (RsdOutcome p k)
  | eph : 2 ≤ p.numCand → ExactAlg w.env alg → Elects w p k alg "eph" (EPHWinner p k (Finset.range p.numCand))

end Spec

end Abc
