import Verif.Spec.Dispatch

/-!
# Guarantees: approximation of the optimal score, average satisfaction of groups
-/

namespace Abc.Spec

/-- The members of the group `G` approve on (weighted) average at least `x` members of `W`. -/
def AverageAtLeast (p : Profile) (W : Finset ℕ) (G : Group p) (x : ℚ) : Prop :=
  wt p G * x ≤ ∑ i ∈ G, (p.voters.get i).weight * sat p W i

/-- Rules with EJR+, with the conditions under which the code is proved to compute them (see `Elects`). -/
inductive ExtendedRule (w : World) (p : Profile) (k : ℕ) (alg : String) : String → Prop
  | pav : (alg = "ortools-cp" → IntegerWeights p) → ExtendedRule w p k alg "pav"
  | equalShares {ruleId : String} : ruleId ∈ ["rule-x", "equal-shares", "equal-shares-with-seqphragmen-completion"] →
      ApproversAtLeastOne p → ExactAlg w.env alg → ExtendedRule w p k alg ruleId
  | equalSharesAv : ExactAlg w.env alg → ExtendedRule w p k alg "equal-shares-with-av-completion"
  | equalSharesNone {ruleId : String} : ruleId ∈ ["rule-x-without-phragmen-phase", "equal-shares-without-phragmen-phase",
      "equal-shares-without-completion"] → ExactAlg w.env alg → ExtendedRule w p k alg ruleId

/-- PJR+: if a group deserves `ℓ` seats and agrees on a candidate who is not elected, its members approve together at least `ℓ` members of
the committee. -/
def PJRplus (p : Profile) (W : Finset ℕ) (q : ℚ) : Prop :=
  ∀ (ℓ : ℕ) (G : Group p) (c : ℕ), 1 ≤ ℓ → (ℓ : ℚ) * q ≤ wt p G → c ∉ W → (∀ i ∈ G, c ∈ appr p i) → ℓ ≤ (G.biUnion (appr p) ∩ W).card

/-- The core up to a factor: no group that deserves the seats of `T` approves in `T` (each of its members) more than `γ` times as many
candidates as in `W`. -/
def CoreUpTo (γ : ℕ) (p : Profile) (W : Finset ℕ) (q : ℚ) : Prop :=
  ∀ (G : Group p) (T : Finset ℕ), G.Nonempty → (T.card : ℚ) * q ≤ wt p G → ∃ i ∈ G, (appr p i ∩ T).card ≤ γ * sat p W i

/-- Rules with PJR+, with the conditions under which the code is proved to compute them (see `Elects`). -/
inductive RepresentationRule (w : World) (p : Profile) (k : ℕ) (alg : String) : String → Prop
  | extended {ruleId : String} : ExtendedRule w p k alg ruleId → RepresentationRule w p k alg ruleId
  | seqphragmen : ApproversAtLeastOne p → ExactAlg w.env alg → RepresentationRule w p k alg "seqphragmen"
  | maximinSupport : IntegerWeights p → k ≤ 3162 → RepresentationRule w p k alg "maximin-support"
  | enestroem : ExactAlg w.env alg → RepresentationRule w p k alg "phragmen-enestroem"
  | leximaxphragmen : (∀ v ∈ p.voters, 1 ≤ v.weight) → k ≤ (approvedSet p).card → (p.voters.length + 1) * total p < 10 ^ 7 →
      RepresentationRule w p k alg "leximaxphragmen"
  | monroe : (∀ v ∈ p.voters, v.weight = 1) → k ∣ p.voters.length → RepresentationRule w p k alg "monroe"
  | greedyMonroe : (∀ v ∈ p.voters, v.weight = 1) → k ∣ p.voters.length → RepresentationRule w p k alg "greedy-monroe"

end Abc.Spec
