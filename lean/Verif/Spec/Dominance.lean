import Verif.Spec.Dispatch

/-!
# Comparing two candidates by their supporters
-/

namespace Abc.Spec

/-- Everybody who approves `d` also approves `c`. -/
def AsApproved (p : Profile) (c d : ℕ) : Prop := ∀ v ∈ p.voters, d ∈ v.A → c ∈ v.A

/-- Everybody who approves `d` also approves `c`, and somebody approves `c` but not `d`. -/
def MoreApproved (p : Profile) (c d : ℕ) : Prop := AsApproved p c d ∧ ∃ v ∈ p.voters, c ∈ v.A ∧ d ∉ v.A

/-- Nobody approves `c`. -/
def Unapproved (p : Profile) (c : ℕ) : Prop := ∀ v ∈ p.voters, c ∉ v.A

/-- A candidate is elected together with everybody who has (strictly) more supporters. -/
def RespectsDominance (p : Profile) (W : List ℕ) : Prop := ∀ c d, MoreApproved p c d → d ∈ W → c ∈ W

/-- Candidates nobody approves are elected only if all others are. -/
def ApprovedFirst (p : Profile) (W : List ℕ) : Prop :=
  ∀ d ∈ W, Unapproved p d → ∀ c < p.numCand, ¬ Unapproved p c → c ∈ W

/-- With a committee also those win that one gets by replacing a member by another candidate approved by all supporters of that
member. -/
def ClosedUnderReplacement (p : Profile) (cs : List (List ℕ)) : Prop :=
  ∀ W ∈ cs, ∀ c d, c < p.numCand → AsApproved p c d → d ∈ W → c ∉ W →
    ∃ V ∈ cs, ∀ x, x ∈ V ↔ x = c ∨ (x ∈ W ∧ x ≠ d)

/-- Rules that respect dominance, with the conditions under which the code is proved to compute them (see `Elects`). -/
inductive DominanceRule (w : World) (p : Profile) (k : ℕ) (alg : String) : String → Prop
  | av : DominanceRule w p k alg "av"
  | sav : DominanceRule w p k alg "sav"
  /-- `pav`, `slav`, `geom<base>` -/
  | thiele {sid : String} {s : ScoreId} : w.env.scoreId sid = .ok s →
      (s = .pav ∨ s = .slav ∨ ∃ b, s = .geom b ∧ (1 < b ∨ (alg = "branch-and-bound" ∧ 1 ≤ b) ∨ (alg = "brute-force" ∧ 0 < b))) →
      (alg = "ortools-cp" → IntegerWeights p) → DominanceRule w p k alg sid
  | lexcc : (alg = "gurobi" → Granular p) → DominanceRule w p k alg "lexcc"
  /-- `seqpav`, `seqslav`, `seqav`, `seqgeom<base>` -/
  | seqThiele {sid : String} {s : ScoreId} : w.env.scoreId sid = .ok s → s.Positive → DominanceRule w p k alg ("seq" ++ sid)
  /-- `revseqpav`, `revseqslav`, `revseqav`, `revseqgeom<base>` -/
  | revseqThiele {sid : String} {s : ScoreId} : w.env.scoreId sid = .ok s → s.Positive → DominanceRule w p k alg ("revseq" ++ sid)
  | lexminimaxav : (∀ v ∈ p.voters, v.weight = 1) → DominanceRule w p k alg "lexminimaxav"
  | eph : 2 ≤ p.numCand → ExactAlg w.env alg → DominanceRule w p k alg "eph"

/-- Further rules that elect unapproved candidates last. -/
inductive ApprovedFirstRule (w : World) (p : Profile) (k : ℕ) (alg : String) : String → Prop
  | dominance {ruleId : String} : DominanceRule w p k alg ruleId → ApprovedFirstRule w p k alg ruleId
  | seqphragmen : ApproversAtLeastOne p → ExactAlg w.env alg → ApprovedFirstRule w p k alg "seqphragmen"
  | minimaxphragmen : (∀ v ∈ p.voters, 1 ≤ v.weight) → k ≤ (approvedSet p).card → ApprovedFirstRule w p k alg "minimaxphragmen"
  | leximaxphragmen : (∀ v ∈ p.voters, 1 ≤ v.weight) → k ≤ (approvedSet p).card → ApprovedFirstRule w p k alg "leximaxphragmen"
  | maximinSupport : IntegerWeights p → k ≤ 3162 → ApprovedFirstRule w p k alg "maximin-support"
  | equalShares {ruleId : String} : ruleId ∈ ["rule-x", "equal-shares", "equal-shares-with-seqphragmen-completion"] →
      ApproversAtLeastOne p → ExactAlg w.env alg → ApprovedFirstRule w p k alg ruleId
  | equalSharesAv : ExactAlg w.env alg → ApprovedFirstRule w p k alg "equal-shares-with-av-completion"
  | equalSharesIncrement : ApproversAtLeastOne p → ExactAlg w.env alg →
      ApprovedFirstRule w p k alg "equal-shares-with-increment-completion"
  | equalSharesNone {ruleId : String} : ruleId ∈ ["rule-x-without-phragmen-phase", "equal-shares-without-phragmen-phase",
      "equal-shares-without-completion"] → ExactAlg w.env alg → ApprovedFirstRule w p k alg ruleId
  | rsd : (∀ v ∈ p.voters, v.weight = 1) → ApprovedFirstRule w p k alg "rsd"

/-- Rules whose winning committees are closed under replacement. -/
inductive ReplacementRule (w : World) (p : Profile) (k : ℕ) (alg : String) : String → Prop
  | av : ReplacementRule w p k alg "av"
  | sav : ReplacementRule w p k alg "sav"
  /-- `pav`, `slav`, `cc`, `geom<base>` -/
  | thiele {sid : String} {s : ScoreId} : w.env.scoreId sid = .ok s →
      (s = .pav ∨ s = .slav ∨ s = .cc ∨
        ∃ b, s = .geom b ∧ (1 < b ∨ (alg = "branch-and-bound" ∧ 1 ≤ b) ∨ (alg = "brute-force" ∧ 0 < b))) →
      (alg = "ortools-cp" → IntegerWeights p) → ReplacementRule w p k alg sid
  | lexcc : (alg = "gurobi" → Granular p) → ReplacementRule w p k alg "lexcc"
  | minimaxphragmen : IntegerWeights p → total p ≤ 3162 → k ≤ (approvedSet p).card → ReplacementRule w p k alg "minimaxphragmen"
  | monroe : (∀ v ∈ p.voters, v.weight = 1) → ReplacementRule w p k alg "monroe"
  | minimaxav : ReplacementRule w p k alg "minimaxav"
  | lexminimaxav : (∀ v ∈ p.voters, v.weight = 1) → ReplacementRule w p k alg "lexminimaxav"
  | trivial : ReplacementRule w p k alg "trivial"

end Abc.Spec
