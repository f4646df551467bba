import Verif.Spec.Renaming
import Verif.Spec.Dominance

/-!
# Symmetries of a profile; candidates with the same supporters
-/

namespace Abc.Spec

/-- A symmetry of a profile: candidates and voters are permuted such that the profile stays the same. -/
abbrev Symmetry (p : Profile) := Renaming 1 p p

/-- Every voter approves both `c` and `d` or neither of them. -/
def Clones (p : Profile) (c d : ℕ) : Prop := ∀ v ∈ p.voters, c ∈ v.A ↔ d ∈ v.A

/-- With a committee all its images under symmetries of the profile are in the list. -/
def ClosedUnderSymmetries (p : Profile) (cs : List (List ℕ)) : Prop :=
  ∀ R : Symmetry p, ∀ W ∈ cs, ∃ V ∈ cs, ∀ x, R.cand x ∈ V ↔ x ∈ W

/-- With a committee also that one is in the list in which a member is replaced by a candidate with the same supporters. -/
def ClonesExchangeable (p : Profile) (cs : List (List ℕ)) : Prop :=
  ∀ W ∈ cs, ∀ c d, c < p.numCand → Clones p c d → d ∈ W → c ∉ W → ∃ V ∈ cs, ∀ x, x ∈ V ↔ x = c ∨ (x ∈ W ∧ x ≠ d)

/-- Of several candidates with the same supporters those with smaller index are elected first. -/
def FirstClones (p : Profile) (W : List ℕ) : Prop := ∀ c d, c < d → Clones p c d → d ∈ W → c ∈ W

/-- Rules and algorithms that, with `resolute=True`, elect of several candidates with the same supporters those with smaller index. -/
inductive FirstClonesRule (w : World) (p : Profile) (k : ℕ) (alg : String) : String → Prop
  | av : FirstClonesRule w p k alg "av"
  | sav : FirstClonesRule w p k alg "sav"
  /-- `pav`, `slav`, `cc`, `geom<base>` by brute force -/
  | thiele {sid : String} {s : ScoreId} : w.env.scoreId sid = .ok s → (s = .pav ∨ s = .slav ∨ s = .cc ∨ ∃ b, s = .geom b ∧ 0 < b) →
      alg = "brute-force" → FirstClonesRule w p k alg sid
  /-- `seqpav`, `seqslav`, `seqcc`, `seqav`, `seqgeom<base>` -/
  | seqThiele {sid : String} {s : ScoreId} : w.env.scoreId sid = .ok s → (∀ i, 0 ≤ marginalFct s i) →
      FirstClonesRule w p k alg ("seq" ++ sid)
  | seqphragmen : ApproversAtLeastOne p → ExactAlg w.env alg → FirstClonesRule w p k alg "seqphragmen"
  | maximinSupport : IntegerWeights p → k ≤ 3162 → (∀ l, w.iter l = l) → FirstClonesRule w p k alg "maximin-support"
  | greedyMonroe : (∀ v ∈ p.voters, v.weight = 1) → (∀ l, w.iter l = l) → FirstClonesRule w p k alg "greedy-monroe"
  | enestroem : ExactAlg w.env alg → FirstClonesRule w p k alg "phragmen-enestroem"
  | consensus : ExactAlg w.env alg → FirstClonesRule w p k alg "consensus-rule"
  | equalShares {ruleId : String} : ruleId ∈ ["rule-x", "equal-shares", "equal-shares-with-seqphragmen-completion"] →
      ApproversAtLeastOne p → ExactAlg w.env alg → FirstClonesRule w p k alg ruleId
  | equalSharesNone {ruleId : String} : ruleId ∈ ["rule-x-without-phragmen-phase", "equal-shares-without-phragmen-phase",
      "equal-shares-without-completion"] → ExactAlg w.env alg → FirstClonesRule w p k alg ruleId
  | equalSharesIncrement : ApproversAtLeastOne p → ExactAlg w.env alg →
      FirstClonesRule w p k alg "equal-shares-with-increment-completion"

end Abc.Spec
