import Verif.Spec.Dispatch

/-!
# Elections with a single seat
-/

namespace Abc.Spec

/-- No candidate is approved by more voters (by voters of larger total weight) than `c`. -/
def MostApproved (p : Profile) (c : ℕ) : Prop :=
  c < p.numCand ∧ ∀ d < p.numCand, wt p (backers p d) ≤ wt p (backers p c)

/-- The committees consisting of one most approved candidate. -/
def SingleWinner (p : Profile) (A : Finset ℕ) : Prop := ∃ c, A = {c} ∧ MostApproved p c

/-- Rules that are approval voting if there is only one seat, with the conditions under which the code is proved to compute them (see
`Elects`). -/
inductive SingleSeatRule (w : World) (p : Profile) (alg : String) : String → Prop
  | av : SingleSeatRule w p alg "av"
  /-- `pav`, `slav`, `cc` and `geom<base>` -/
  | thiele {sid : String} {s : ScoreId} : w.env.scoreId sid = .ok s →
      (s = .pav ∨ s = .slav ∨ s = .cc ∨
        ∃ b, s = .geom b ∧ (1 < b ∨ (alg = "branch-and-bound" ∧ 1 ≤ b) ∨ (alg = "brute-force" ∧ 0 < b))) →
      (alg = "ortools-cp" → IntegerWeights p) → SingleSeatRule w p alg sid
  | lexcc : (alg = "gurobi" → Granular p) → SingleSeatRule w p alg "lexcc"
  /-- `seqpav`, `seqslav`, `seqcc`, `seqav`, `seqgeom<base>` -/
  | seqThiele {sid : String} {s : ScoreId} : w.env.scoreId sid = .ok s → s.Proper → SingleSeatRule w p alg ("seq" ++ sid)
  | seqphragmen : ApproversAtLeastOne p → ExactAlg w.env alg → SingleSeatRule w p alg "seqphragmen"
  | minimaxphragmen : IntegerWeights p → total p ≤ 3162 → (approvedSet p).Nonempty → SingleSeatRule w p alg "minimaxphragmen"
  | maximinSupport : IntegerWeights p → SingleSeatRule w p alg "maximin-support"
  | monroe : (∀ v ∈ p.voters, v.weight = 1) → SingleSeatRule w p alg "monroe"
  | greedyMonroe : (∀ v ∈ p.voters, v.weight = 1) → SingleSeatRule w p alg "greedy-monroe"
  | equalShares {ruleId : String} : ruleId ∈ ["rule-x", "equal-shares", "equal-shares-with-seqphragmen-completion"] →
      ApproversAtLeastOne p → ExactAlg w.env alg → SingleSeatRule w p alg ruleId
  | equalSharesAv : ExactAlg w.env alg → SingleSeatRule w p alg "equal-shares-with-av-completion"
  | enestroem : ExactAlg w.env alg → SingleSeatRule w p alg "phragmen-enestroem"
  | consensus : ExactAlg w.env alg → SingleSeatRule w p alg "consensus-rule"

end Abc.Spec
