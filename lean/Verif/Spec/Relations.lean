import Verif.Spec.Dispatch

/-!
# When different rules elect the same committees
-/

namespace Abc.Spec

/-- Nobody approves more than one candidate. -/
def SingleVotes (p : Profile) : Prop := ∀ v ∈ p.voters, v.A.card ≤ 1

/-- Rules that are plain plurality voting for `k` seats (single non-transferable vote) if nobody approves more than one candidate, with the
conditions under which the code is proved to compute them (see `Elects`). -/
inductive SingleVoteRule (w : World) (p : Profile) (k : ℕ) (alg : String) : String → Prop
  | sav : SingleVoteRule w p k alg "sav"
  /-- `pav`, `slav`, `cc` and `geom<base>` -/
  | thiele {sid : String} {s : ScoreId} : w.env.scoreId sid = .ok s →
      (s = .pav ∨ s = .slav ∨ s = .cc ∨
        ∃ b, s = .geom b ∧ (1 < b ∨ (alg = "branch-and-bound" ∧ 1 ≤ b) ∨ (alg = "brute-force" ∧ 0 < b))) →
      (alg = "ortools-cp" → IntegerWeights p) → SingleVoteRule w p k alg sid
  | lexcc : (alg = "gurobi" → Granular p) → SingleVoteRule w p k alg "lexcc"
  /-- `seqpav`, `seqslav`, `seqcc`, `seqgeom<base>` -/
  | seqThiele {sid : String} {s : ScoreId} : w.env.scoreId sid = .ok s → (∀ i, 0 ≤ marginalFct s i) → marginalFct s 1 = 1 →
      SingleVoteRule w p k alg ("seq" ++ sid)
  /-- `revseqpav`, `revseqslav`, `revseqcc`, `revseqgeom<base>` -/
  | revseqThiele {sid : String} {s : ScoreId} : w.env.scoreId sid = .ok s → marginalFct s 1 = 1 → SingleVoteRule w p k alg ("revseq" ++ sid)
  | seqphragmen : ApproversAtLeastOne p → ExactAlg w.env alg → SingleVoteRule w p k alg "seqphragmen"
  | maximinSupport : IntegerWeights p → k ≤ 3162 → SingleVoteRule w p k alg "maximin-support"
  | equalShares {ruleId : String} : ruleId ∈ ["rule-x", "equal-shares", "equal-shares-with-seqphragmen-completion"] →
      ApproversAtLeastOne p → ExactAlg w.env alg → SingleVoteRule w p k alg ruleId
  | equalSharesAv : ExactAlg w.env alg → SingleVoteRule w p k alg "equal-shares-with-av-completion"
  | enestroem : ExactAlg w.env alg → SingleVoteRule w p k alg "phragmen-enestroem"
  | consensus : ExactAlg w.env alg → SingleVoteRule w p k alg "consensus-rule"

end Abc.Spec
