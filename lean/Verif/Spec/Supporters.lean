import Verif.Spec.Changes
import Verif.Spec.Ballots

/-!
# New voters who support a single candidate
-/

namespace Abc.Spec

/-- `p'` is the profile `p` after new voters have been added who approve `c` and nobody else. -/
structure NewSupporters (c : ℕ) (p p' : Profile) : Prop where
  cand : p'.numCand = p.numCand
  voters : ∃ l, p'.voters = p.voters ++ l ∧ ∀ v ∈ l, v.approved = [c]

/-- Rules for which new supporters never harm a candidate, with the conditions under which the code is proved to compute them (see
`Elects`), for two profiles, two environments and two algorithms. -/
inductive SupporterRule (w w' : World) (p p' : Profile) (k : ℕ) (alg alg' : String) : String → Prop
  | av : SupporterRule w w' p p' k alg alg' "av"
  | sav : SupporterRule w w' p p' k alg alg' "sav"
  /-- `pav`, `slav`, `cc`, `geom<base>` -/
  | thiele {sid : String} {s : ScoreId} : w.env.scoreId sid = .ok s → w'.env.scoreId sid = .ok s →
      (s = .pav ∨ s = .slav ∨ s = .cc ∨ ∃ b, s = .geom b ∧ 1 < b) →
      (alg = "ortools-cp" → IntegerWeights p) → (alg' = "ortools-cp" → IntegerWeights p') → SupporterRule w w' p p' k alg alg' sid
  | lexcc : (alg = "gurobi" → Granular p) → (alg' = "gurobi" → Granular p') → SupporterRule w w' p p' k alg alg' "lexcc"
  /-- `seqpav`, `seqslav`, `seqcc`, `seqav`, `seqgeom<base>` -/
  | seqThiele {sid : String} {s : ScoreId} : w.env.scoreId sid = .ok s → w'.env.scoreId sid = .ok s → (∀ i, 0 ≤ marginalFct s i) →
      SupporterRule w w' p p' k alg alg' ("seq" ++ sid)
  /-- `revseqpav`, `revseqslav`, `revseqcc`, `revseqav`, `revseqgeom<base>` -/
  | revseqThiele {sid : String} {s : ScoreId} : w.env.scoreId sid = .ok s → w'.env.scoreId sid = .ok s → 0 ≤ marginalFct s 1 →
      SupporterRule w w' p p' k alg alg' ("revseq" ++ sid)
  | seqphragmen : ApproversAtLeastOne p → ApproversAtLeastOne p' → ExactAlg w.env alg → ExactAlg w'.env alg' →
      SupporterRule w w' p p' k alg alg' "seqphragmen"
  | minimaxphragmen : IntegerWeights p → IntegerWeights p' → total p' ≤ 3162 → k ≤ (approvedSet p).card →
      SupporterRule w w' p p' k alg alg' "minimaxphragmen"
  | maximinSupport : IntegerWeights p → IntegerWeights p' → k ≤ 3162 → SupporterRule w w' p p' k alg alg' "maximin-support"
  | minimaxav : SupporterRule w w' p p' k alg alg' "minimaxav"
  | lexminimaxav : (∀ v ∈ p'.voters, v.weight = 1) → SupporterRule w w' p p' k alg alg' "lexminimaxav"

end Abc.Spec
