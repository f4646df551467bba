import Verif.Spec.Electorate
import Verif.Spec.Changes

/-!
# Profiles with the same nonempty ballots
-/

namespace Abc.Spec

/-- The same candidates, and for every nonempty approval set the same total weight of voters with that approval set.  In particular:
additional voters who approve nobody, reordered voters, a voter of weight 2 instead of two voters with the same approval set, … -/
def SameBallots (p p' : Profile) : Prop :=
  p.numCand = p'.numCand ∧ ∀ A, A ≠ ∅ → electorate p.voters A = electorate p'.voters A

/-- The first answer (to a call that asks for all winning committees) contains the committees of the second answer, and the two answers
are equal if the second call asks for all committees, too. -/
def SameWinners (a' : Args) (r r' : Except Err (List (List ℕ))) : Prop :=
  ∃ cs cs', r = .ok cs ∧ r' = .ok cs' ∧ cs' ≠ [] ∧ (∀ W ∈ cs', W ∈ cs) ∧ (AllCommittees a' → cs' = cs)

/-- Rules for which voters who approve nobody do not matter, with the conditions under which the code is proved to compute them (see
`Elects`), for two profiles, two environments and two algorithms. -/
inductive BallotRule (w w' : World) (p p' : Profile) (k : ℕ) (alg alg' : String) : String → Prop
  | av : BallotRule w w' p p' k alg alg' "av"
  | sav : BallotRule w w' p p' k alg alg' "sav"
  /-- `pav`, `slav`, `cc`, `geom<base>` -/
  | thiele {sid : String} {s : ScoreId} : w.env.scoreId sid = .ok s → w'.env.scoreId sid = .ok s →
      (s = .pav ∨ s = .slav ∨ s = .cc ∨ ∃ b, s = .geom b ∧ 1 < b) →
      (alg = "ortools-cp" → IntegerWeights p) → (alg' = "ortools-cp" → IntegerWeights p') → BallotRule w w' p p' k alg alg' sid
  | lexcc : (alg = "gurobi" → Granular p) → (alg' = "gurobi" → Granular p') → BallotRule w w' p p' k alg alg' "lexcc"
  /-- `seqpav`, `seqslav`, `seqcc`, `seqav`, `seqgeom<base>` -/
  | seqThiele {sid : String} {s : ScoreId} : w.env.scoreId sid = .ok s → w'.env.scoreId sid = .ok s → (∀ i, 0 ≤ marginalFct s i) →
      BallotRule w w' p p' k alg alg' ("seq" ++ sid)
  /-- `revseqpav`, `revseqslav`, `revseqcc`, `revseqav`, `revseqgeom<base>` -/
  | revseqThiele {sid : String} {s : ScoreId} : w.env.scoreId sid = .ok s → w'.env.scoreId sid = .ok s →
      BallotRule w w' p p' k alg alg' ("revseq" ++ sid)
  | seqphragmen : ApproversAtLeastOne p → ExactAlg w.env alg → ExactAlg w'.env alg' → BallotRule w w' p p' k alg alg' "seqphragmen"
  | minimaxphragmen : IntegerWeights p → IntegerWeights p' → total p ≤ 3162 → total p' ≤ 3162 → k ≤ (approvedSet p).card →
      BallotRule w w' p p' k alg alg' "minimaxphragmen"
  | maximinSupport : IntegerWeights p → IntegerWeights p' → k ≤ 3162 → BallotRule w w' p p' k alg alg' "maximin-support"
  | lexminimaxav : (∀ v ∈ p.voters, v.weight = 1) → (∀ v ∈ p'.voters, v.weight = 1) → BallotRule w w' p p' k alg alg' "lexminimaxav"
  | trivial : BallotRule w w' p p' k alg alg' "trivial"
  | eph : 2 ≤ p.numCand → ExactAlg w.env alg → ExactAlg w'.env alg' → BallotRule w w' p p' k alg alg' "eph"

/-- Further rules whose winning committees depend only on the total weight of every ballot, including the empty one. -/
inductive ElectorateRule (w w' : World) (p p' : Profile) (k : ℕ) (alg alg' : String) : String → Prop
  | ballots {ruleId : String} : BallotRule w w' p p' k alg alg' ruleId → ElectorateRule w w' p p' k alg alg' ruleId
  | monroe : (∀ v ∈ p.voters, v.weight = 1) → (∀ v ∈ p'.voters, v.weight = 1) → ElectorateRule w w' p p' k alg alg' "monroe"
  | minimaxav : ElectorateRule w w' p p' k alg alg' "minimaxav"
  | equalShares {ruleId : String} : ruleId ∈ ["rule-x", "equal-shares", "equal-shares-with-seqphragmen-completion"] →
      ApproversAtLeastOne p → ExactAlg w.env alg → ExactAlg w'.env alg' → ElectorateRule w w' p p' k alg alg' ruleId
  | equalSharesAv : ExactAlg w.env alg → ExactAlg w'.env alg' → ElectorateRule w w' p p' k alg alg' "equal-shares-with-av-completion"
  | equalSharesNone {ruleId : String} : ruleId ∈ ["rule-x-without-phragmen-phase", "equal-shares-without-phragmen-phase",
      "equal-shares-without-completion"] → ExactAlg w.env alg → ExactAlg w'.env alg' → ElectorateRule w w' p p' k alg alg' ruleId
  | enestroem : ExactAlg w.env alg → ExactAlg w'.env alg' → ElectorateRule w w' p p' k alg alg' "phragmen-enestroem"
  | consensus : ExactAlg w.env alg → ExactAlg w'.env alg' → ElectorateRule w w' p p' k alg alg' "consensus-rule"

end Abc.Spec
