import Verif.Spec.Changes
import Verif.Spec.Ballots

/-!
# Answers with `resolute=True`
-/

namespace Abc.Spec

/-- The answers before (`r`) and after (`r'`) candidate `c` has got additional support are single committees, and if `c` is not in the
second one, the additional support has changed nothing. -/
def LoserIrrelevantOne (c : ℕ) (r r' : Except Err (List (List ℕ))) : Prop :=
  ∃ W W', r = .ok [W] ∧ r' = .ok [W'] ∧ (c ∉ W' → W' = W)

/-- The answers are single committees, and if `c` is in the first one, then also in the second one. -/
def StillElectedOne (c : ℕ) (r r' : Except Err (List (List ℕ))) : Prop :=
  ∃ W W', r = .ok [W] ∧ r' = .ok [W'] ∧ (c ∈ W → c ∈ W')

/-- Rules and algorithms for which the committee returned with `resolute=True` depends on the approvals of a losing candidate in no
way, with the conditions under which the code is proved to compute them.  `iter` is the iteration order of Python sets; for sets
`{0, …, n-1}`, from which elements have been removed, it is ascending. -/
inductive ResoluteRule (w w' : World) (p p' : Profile) (k : ℕ) (alg alg' : String) : String → Prop
  | av : ResoluteRule w w' p p' k alg alg' "av"
  /-- `pav`, `slav`, `cc`, `geom<base>` by brute force -/
  | thiele {sid : String} {s : ScoreId} : w.env.scoreId sid = .ok s → w'.env.scoreId sid = .ok s →
      (s = .pav ∨ s = .slav ∨ s = .cc ∨ ∃ b, s = .geom b ∧ 0 < b) → alg = "brute-force" → alg' = "brute-force" →
      ResoluteRule w w' p p' k alg alg' sid
  /-- `pav`, `slav`, `cc`, `geom<base>` by branch and bound -/
  | thieleBranch {sid : String} {s : ScoreId} : w.env.scoreId sid = .ok s → w'.env.scoreId sid = .ok s →
      (s = .pav ∨ s = .slav ∨ s = .cc ∨ ∃ b, s = .geom b ∧ 1 ≤ b) → alg = "branch-and-bound" → alg' = "branch-and-bound" →
      ResoluteRule w w' p p' k alg alg' sid
  | lexcc : alg = "brute-force" → alg' = "brute-force" → ResoluteRule w w' p p' k alg alg' "lexcc"
  | monroe : (∀ v ∈ p.voters, v.weight = 1) → alg = "brute-force" → alg' = "brute-force" →
      ResoluteRule w w' p p' k alg alg' "monroe"
  /-- `seqpav`, `seqslav`, `seqcc`, `seqav`, `seqgeom<base>` -/
  | seqThiele {sid : String} {s : ScoreId} : w.env.scoreId sid = .ok s → w'.env.scoreId sid = .ok s → (∀ i, 0 ≤ marginalFct s i) →
      ResoluteRule w w' p p' k alg alg' ("seq" ++ sid)
  | seqphragmen : ApproversAtLeastOne p → ApproversAtLeastOne p' → ExactAlg w.env alg → ExactAlg w'.env alg' →
      ResoluteRule w w' p p' k alg alg' "seqphragmen"
  | maximinSupport : IntegerWeights p → IntegerWeights p' → k ≤ 3162 → (∀ l, w.iter l = l) → (∀ l, w'.iter l = l) →
      ResoluteRule w w' p p' k alg alg' "maximin-support"
  | greedyMonroe : (∀ v ∈ p.voters, v.weight = 1) → (∀ l, w.iter l = l) → (∀ l, w'.iter l = l) →
      ResoluteRule w w' p p' k alg alg' "greedy-monroe"
  | enestroem : ExactAlg w.env alg → ExactAlg w'.env alg' → ResoluteRule w w' p p' k alg alg' "phragmen-enestroem"
  | consensus : ExactAlg w.env alg → ExactAlg w'.env alg' → ResoluteRule w w' p p' k alg alg' "consensus-rule"
  | equalShares {ruleId : String} : ruleId ∈ ["rule-x", "equal-shares", "equal-shares-with-seqphragmen-completion"] →
      ApproversAtLeastOne p → ApproversAtLeastOne p' → ExactAlg w.env alg → ExactAlg w'.env alg' → ResoluteRule w w' p p' k alg alg' ruleId
  | equalSharesNone {ruleId : String} : ruleId ∈ ["rule-x-without-phragmen-phase", "equal-shares-without-phragmen-phase",
      "equal-shares-without-completion"] → ExactAlg w.env alg → ExactAlg w'.env alg' → ResoluteRule w w' p p' k alg alg' ruleId

/-! ## Equal electorates -/

/-- Both answers are the same single committee. -/
def SameCommittee (r r' : Except Err (List (List ℕ))) : Prop := ∃ W, r = .ok [W] ∧ r' = .ok [W]

/-- Rules and algorithms for which voters who approve nobody do not influence the committee returned with `resolute=True`. -/
inductive ResoluteBallotRule (w w' : World) (p p' : Profile) (k : ℕ) (alg alg' : String) : String → Prop
  | av : ResoluteBallotRule w w' p p' k alg alg' "av"
  | sav : ResoluteBallotRule w w' p p' k alg alg' "sav"
  /-- `pav`, `slav`, `cc`, `geom<base>` by brute force -/
  | thiele {sid : String} {s : ScoreId} : w.env.scoreId sid = .ok s → w'.env.scoreId sid = .ok s →
      (s = .pav ∨ s = .slav ∨ s = .cc ∨ ∃ b, s = .geom b ∧ 0 < b) → alg = "brute-force" → alg' = "brute-force" →
      ResoluteBallotRule w w' p p' k alg alg' sid
  /-- `pav`, `slav`, `cc`, `geom<base>` by branch and bound -/
  | thieleBranch {sid : String} {s : ScoreId} : w.env.scoreId sid = .ok s → w'.env.scoreId sid = .ok s →
      (s = .pav ∨ s = .slav ∨ s = .cc ∨ ∃ b, s = .geom b ∧ 1 ≤ b) → alg = "branch-and-bound" → alg' = "branch-and-bound" →
      ResoluteBallotRule w w' p p' k alg alg' sid
  | lexcc : alg = "brute-force" → alg' = "brute-force" → ResoluteBallotRule w w' p p' k alg alg' "lexcc"
  | lexminimaxav : (∀ v ∈ p.voters, v.weight = 1) → (∀ v ∈ p'.voters, v.weight = 1) → alg = "brute-force" → alg' = "brute-force" →
      ResoluteBallotRule w w' p p' k alg alg' "lexminimaxav"
  /-- `seqpav`, `seqslav`, `seqcc`, `seqav`, `seqgeom<base>` -/
  | seqThiele {sid : String} {s : ScoreId} : w.env.scoreId sid = .ok s → w'.env.scoreId sid = .ok s → (∀ i, 0 ≤ marginalFct s i) →
      ResoluteBallotRule w w' p p' k alg alg' ("seq" ++ sid)
  | seqphragmen : ApproversAtLeastOne p → ExactAlg w.env alg → ExactAlg w'.env alg' → ResoluteBallotRule w w' p p' k alg alg' "seqphragmen"
  | maximinSupport : IntegerWeights p → IntegerWeights p' → k ≤ 3162 → (∀ l, w.iter l = l) → (∀ l, w'.iter l = l) →
      ResoluteBallotRule w w' p p' k alg alg' "maximin-support"
  | trivial : ResoluteBallotRule w w' p p' k alg alg' "trivial"

/-- Rules and algorithms for which the committee returned with `resolute=True` depends only on the total weight of every ballot. -/
inductive ResoluteElectorateRule (w w' : World) (p p' : Profile) (k : ℕ) (alg alg' : String) : String → Prop
  | ballots {ruleId : String} : ResoluteBallotRule w w' p p' k alg alg' ruleId → ResoluteElectorateRule w w' p p' k alg alg' ruleId
  | monroe : (∀ v ∈ p.voters, v.weight = 1) → (∀ v ∈ p'.voters, v.weight = 1) → alg = "brute-force" → alg' = "brute-force" →
      ResoluteElectorateRule w w' p p' k alg alg' "monroe"
  | minimaxav : alg = "brute-force" → alg' = "brute-force" → ResoluteElectorateRule w w' p p' k alg alg' "minimaxav"
  | equalShares {ruleId : String} : ruleId ∈ ["rule-x", "equal-shares", "equal-shares-with-seqphragmen-completion"] →
      ApproversAtLeastOne p → ExactAlg w.env alg → ExactAlg w'.env alg' → ResoluteElectorateRule w w' p p' k alg alg' ruleId
  | equalSharesIncrement : ApproversAtLeastOne p → ExactAlg w.env alg → ExactAlg w'.env alg' →
      ResoluteElectorateRule w w' p p' k alg alg' "equal-shares-with-increment-completion"
  | equalSharesNone {ruleId : String} : ruleId ∈ ["rule-x-without-phragmen-phase", "equal-shares-without-phragmen-phase",
      "equal-shares-without-completion"] → ExactAlg w.env alg → ExactAlg w'.env alg' →
      ResoluteElectorateRule w w' p p' k alg alg' ruleId
  | enestroem : ExactAlg w.env alg → ExactAlg w'.env alg' → ResoluteElectorateRule w w' p p' k alg alg' "phragmen-enestroem"
  | consensus : ExactAlg w.env alg → ExactAlg w'.env alg' → ResoluteElectorateRule w w' p p' k alg alg' "consensus-rule"

/-! ## New supporters -/

/-- Rules and algorithms for which, with `resolute=True`, new voters who approve only a losing candidate change nothing. -/
inductive ResoluteSupporterRule (w w' : World) (p p' : Profile) (k : ℕ) (alg alg' : String) : String → Prop
  | av : ResoluteSupporterRule w w' p p' k alg alg' "av"
  /-- `pav`, `slav`, `cc`, `geom<base>` by brute force -/
  | thiele {sid : String} {s : ScoreId} : w.env.scoreId sid = .ok s → w'.env.scoreId sid = .ok s →
      (s = .pav ∨ s = .slav ∨ s = .cc ∨ ∃ b, s = .geom b ∧ 0 < b) → alg = "brute-force" → alg' = "brute-force" →
      ResoluteSupporterRule w w' p p' k alg alg' sid
  /-- `pav`, `slav`, `cc`, `geom<base>` by branch and bound -/
  | thieleBranch {sid : String} {s : ScoreId} : w.env.scoreId sid = .ok s → w'.env.scoreId sid = .ok s →
      (s = .pav ∨ s = .slav ∨ s = .cc ∨ ∃ b, s = .geom b ∧ 1 ≤ b) → alg = "branch-and-bound" → alg' = "branch-and-bound" →
      ResoluteSupporterRule w w' p p' k alg alg' sid
  | lexcc : alg = "brute-force" → alg' = "brute-force" → ResoluteSupporterRule w w' p p' k alg alg' "lexcc"
  /-- `seqpav`, `seqslav`, `seqcc`, `seqav`, `seqgeom<base>` -/
  | seqThiele {sid : String} {s : ScoreId} : w.env.scoreId sid = .ok s → w'.env.scoreId sid = .ok s → (∀ i, 0 ≤ marginalFct s i) →
      ResoluteSupporterRule w w' p p' k alg alg' ("seq" ++ sid)
  | seqphragmen : ApproversAtLeastOne p → ApproversAtLeastOne p' → ExactAlg w.env alg → ExactAlg w'.env alg' →
      ResoluteSupporterRule w w' p p' k alg alg' "seqphragmen"
  | maximinSupport : IntegerWeights p → IntegerWeights p' → k ≤ 3162 → (∀ l, w.iter l = l) → (∀ l, w'.iter l = l) →
      ResoluteSupporterRule w w' p p' k alg alg' "maximin-support"

/-! ## Candidates without approvals -/

/-- Rules and algorithms for which, with `resolute=True`, additional candidates at the end whom nobody approves change nothing. -/
inductive ResoluteDummyRule (w : World) (p : Profile) (k : ℕ) (alg : String) : String → Prop
  | av : ResoluteDummyRule w p k alg "av"
  | sav : ResoluteDummyRule w p k alg "sav"
  /-- `pav`, `slav`, `cc`, `geom<base>` by brute force -/
  | thiele {sid : String} {s : ScoreId} : w.env.scoreId sid = .ok s → (s = .pav ∨ s = .slav ∨ s = .cc ∨ ∃ b, s = .geom b ∧ 0 < b) →
      alg = "brute-force" → ResoluteDummyRule w p k alg sid
  /-- `pav`, `slav`, `geom<base>` by branch and bound, if there are enough approved candidates -/
  | thieleBranch {sid : String} {s : ScoreId} : w.env.scoreId sid = .ok s → (s = .pav ∨ s = .slav ∨ ∃ b, s = .geom b ∧ 1 ≤ b) →
      alg = "branch-and-bound" → k ≤ (approvedSet p).card → ResoluteDummyRule w p k alg sid
  | lexcc : alg = "brute-force" → k ≤ (approvedSet p).card → ResoluteDummyRule w p k alg "lexcc"
  | lexminimaxav : (∀ v ∈ p.voters, v.weight = 1) → alg = "brute-force" → k ≤ (approvedSet p).card →
      ResoluteDummyRule w p k alg "lexminimaxav"
  /-- `seqpav`, `seqslav`, `seqcc`, `seqav`, `seqgeom<base>` -/
  | seqThiele {sid : String} {s : ScoreId} : w.env.scoreId sid = .ok s → (∀ i, 0 ≤ marginalFct s i) →
      ResoluteDummyRule w p k alg ("seq" ++ sid)
  | seqphragmen : ApproversAtLeastOne p → ExactAlg w.env alg → ResoluteDummyRule w p k alg "seqphragmen"
  | maximinSupport : IntegerWeights p → k ≤ 3162 → (∀ l, w.iter l = l) → ResoluteDummyRule w p k alg "maximin-support"
  | greedyMonroe : (∀ v ∈ p.voters, v.weight = 1) → (∀ l, w.iter l = l) → ResoluteDummyRule w p k alg "greedy-monroe"
  | enestroem : ExactAlg w.env alg → ResoluteDummyRule w p k alg "phragmen-enestroem"
  | consensus : ExactAlg w.env alg → ResoluteDummyRule w p k alg "consensus-rule"
  | equalShares {ruleId : String} : ruleId ∈ ["rule-x", "equal-shares", "equal-shares-with-seqphragmen-completion"] →
      ApproversAtLeastOne p → ExactAlg w.env alg → ResoluteDummyRule w p k alg ruleId
  | equalSharesNone {ruleId : String} : ruleId ∈ ["rule-x-without-phragmen-phase", "equal-shares-without-phragmen-phase",
      "equal-shares-without-completion"] → ExactAlg w.env alg → ResoluteDummyRule w p k alg ruleId
  | trivial : ResoluteDummyRule w p k alg "trivial"

end Abc.Spec
