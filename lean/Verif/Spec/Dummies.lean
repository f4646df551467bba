import Verif.Spec.Dominance

/-!
# Additional candidates whom nobody approves
-/

namespace Abc.Spec

/-- `q` has the same ballots as `p` and possibly additional candidates; so nobody approves these. -/
def MoreCandidates (p q : Profile) : Prop := q.voters = p.voters ∧ p.numCand ≤ q.numCand

/-- Rules for which additional candidates do not matter, with the conditions under which the code is proved to compute them (see
`Elects`). -/
inductive DummyRule (w : World) (p : Profile) (k : ℕ) (alg : String) : String → Prop
  | av : DummyRule w p k alg "av"
  | sav : DummyRule w p k alg "sav"
  /-- `pav`, `slav`, `geom<base>` -/
  | thiele {sid : String} {s : ScoreId} : w.env.scoreId sid = .ok s →
      (s = .pav ∨ s = .slav ∨ ∃ b, s = .geom b ∧ (1 < b ∨ (alg = "branch-and-bound" ∧ 1 ≤ b) ∨ (alg = "brute-force" ∧ 0 < b))) →
      (alg = "ortools-cp" → IntegerWeights p) → DummyRule w p k alg sid
  | lexcc : (alg = "gurobi" → Granular p) → DummyRule w p k alg "lexcc"
  /-- `seqpav`, `seqslav`, `seqav`, `seqgeom<base>` -/
  | seqThiele {sid : String} {s : ScoreId} : w.env.scoreId sid = .ok s → s.Positive → DummyRule w p k alg ("seq" ++ sid)
  /-- `revseqpav`, `revseqslav`, `revseqav`, `revseqgeom<base>` -/
  | revseqThiele {sid : String} {s : ScoreId} : w.env.scoreId sid = .ok s → s.Positive → DummyRule w p k alg ("revseq" ++ sid)
  | lexminimaxav : (∀ v ∈ p.voters, v.weight = 1) → DummyRule w p k alg "lexminimaxav"
  | seqphragmen : ApproversAtLeastOne p → ExactAlg w.env alg → DummyRule w p k alg "seqphragmen"
  | minimaxphragmen : IntegerWeights p → total p ≤ 3162 → DummyRule w p k alg "minimaxphragmen"
  | maximinSupport : IntegerWeights p → k ≤ 3162 → DummyRule w p k alg "maximin-support"
  | equalShares {ruleId : String} : ruleId ∈ ["rule-x", "equal-shares", "equal-shares-with-seqphragmen-completion"] →
      ApproversAtLeastOne p → ExactAlg w.env alg → DummyRule w p k alg ruleId
  | equalSharesAv : ExactAlg w.env alg → DummyRule w p k alg "equal-shares-with-av-completion"
  | equalSharesIncrement : ApproversAtLeastOne p → ExactAlg w.env alg → DummyRule w p k alg "equal-shares-with-increment-completion"
  | equalSharesNone {ruleId : String} : ruleId ∈ ["rule-x-without-phragmen-phase", "equal-shares-without-phragmen-phase",
      "equal-shares-without-completion"] → ExactAlg w.env alg → DummyRule w p k alg ruleId

end Abc.Spec
