import Verif.Spec.Supporters

/-!
# Approvals of a candidate who loses anyway
-/

namespace Abc.Spec

/-- The answers before (`r`) and after (`r'`) candidate `c` has got additional support: every winning committee without `c` already
won before, and if `c` is in no winning committee then the additional support has changed nothing. -/
def LoserIrrelevant (c : ℕ) (r r' : Except Err (List (List ℕ))) : Prop :=
  ∃ cs cs', r = .ok cs ∧ r' = .ok cs' ∧ (∀ W ∈ cs', c ∉ W → W ∈ cs) ∧ ((∀ W ∈ cs', c ∉ W) → cs' = cs)

/-- Rules that treat the approvals of a losing candidate in this way, with the conditions under which the code is proved to compute
them (see `Elects`), for two profiles, two environments and two algorithms. -/
inductive LoserRule (w w' : World) (p p' : Profile) (k : ℕ) (alg alg' : String) : String → Prop
  | av : LoserRule w w' p p' k alg alg' "av"
  /-- `pav`, `slav`, `cc`, `geom<base>` -/
  | thiele {sid : String} {s : ScoreId} : w.env.scoreId sid = .ok s → w'.env.scoreId sid = .ok s →
      (s = .pav ∨ s = .slav ∨ s = .cc ∨ ∃ b, s = .geom b ∧ 1 < b) →
      (alg = "ortools-cp" → IntegerWeights p) → (alg' = "ortools-cp" → IntegerWeights p') → LoserRule w w' p p' k alg alg' sid
  | lexcc : (alg = "gurobi" → Granular p) → (alg' = "gurobi" → Granular p') → LoserRule w w' p p' k alg alg' "lexcc"
  /-- `seqpav`, `seqslav`, `seqcc`, `seqav`, `seqgeom<base>` -/
  | seqThiele {sid : String} {s : ScoreId} : w.env.scoreId sid = .ok s → w'.env.scoreId sid = .ok s → (∀ i, 0 ≤ marginalFct s i) →
      LoserRule w w' p p' k alg alg' ("seq" ++ sid)
  | seqphragmen : ApproversAtLeastOne p → ApproversAtLeastOne p' → ExactAlg w.env alg → ExactAlg w'.env alg' →
      LoserRule w w' p p' k alg alg' "seqphragmen"
  | minimaxphragmen : IntegerWeights p → IntegerWeights p' → total p' ≤ 3162 → k ≤ (approvedSet p).card →
      LoserRule w w' p p' k alg alg' "minimaxphragmen"
  | maximinSupport : IntegerWeights p → IntegerWeights p' → k ≤ 3162 → LoserRule w w' p p' k alg alg' "maximin-support"

/-- Further rules, if no voters are added. -/
inductive LoserRule' (w w' : World) (p p' : Profile) (k : ℕ) (alg alg' : String) : String → Prop
  | common {ruleId : String} : LoserRule w w' p p' k alg alg' ruleId → LoserRule' w w' p p' k alg alg' ruleId
  | monroe : (∀ v ∈ p.voters, v.weight = 1) → LoserRule' w w' p p' k alg alg' "monroe"
  | enestroem : ExactAlg w.env alg → ExactAlg w'.env alg' → LoserRule' w w' p p' k alg alg' "phragmen-enestroem"
  | consensus : ExactAlg w.env alg → ExactAlg w'.env alg' → LoserRule' w w' p p' k alg alg' "consensus-rule"
  | equalShares {ruleId : String} : ruleId ∈ ["rule-x", "equal-shares", "equal-shares-with-seqphragmen-completion"] →
      ApproversAtLeastOne p → ApproversAtLeastOne p' → ExactAlg w.env alg → ExactAlg w'.env alg' → LoserRule' w w' p p' k alg alg' ruleId
  | equalSharesAv : ExactAlg w.env alg → ExactAlg w'.env alg' → LoserRule' w w' p p' k alg alg' "equal-shares-with-av-completion"
  | equalSharesNone {ruleId : String} : ruleId ∈ ["rule-x-without-phragmen-phase", "equal-shares-without-phragmen-phase",
      "equal-shares-without-completion"] → ExactAlg w.env alg → ExactAlg w'.env alg' → LoserRule' w w' p p' k alg alg' ruleId

/-- `p` is the profile `p'` after the last candidate has left: ballots and weights are as before, without this candidate. -/
structure LastCandidateLeaves (p' p : Profile) : Prop where
  cand : p'.numCand = p.numCand + 1
  voters : List.Forall₂ (fun v v' : Voter => v'.weight = v.weight ∧ v.A = v'.A.erase p.numCand) p.voters p'.voters

end Abc.Spec
