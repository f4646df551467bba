import Mathlib.Data.Rat.Floor
import Verif.Spec.Run
import Verif.Spec.Sequential

/-!
# Apportionment: how seats are distributed among parties

In a party-list profile two ballots are equal or disjoint.  A party is a set of candidates supported by the same voters.
-/

namespace Abc.Spec

/-- Two candidates of the same party: they are supported by the same voters. -/
def SameParty (p : Profile) (c d : ℕ) : Prop := ∀ i : Fin p.voters.length, c ∈ appr p i ↔ d ∈ appr p i

instance (p : Profile) (c : ℕ) : DecidablePred (SameParty p c) := fun d => by unfold SameParty; infer_instance

/-- Votes for the party of candidate `c`: the total weight of its supporters. -/
def votes (p : Profile) (c : ℕ) : ℚ := wt p (backers p c)

/-- Seats of the party of candidate `c` in the committee `W`. -/
def seats (p : Profile) (W : Finset ℕ) (c : ℕ) : ℕ := (W.filter (SameParty p c)).card

/-- Outcomes of the divisor method with divisors `1 / f 1`, `1 / f 2`, …: no party without a seat for candidate `d` has a better claim to
one more seat than the party of a member `c` has to its last seat. -/
def DivisorOutcome (f : ℕ → ℚ) (p : Profile) (k : ℕ) (W : Finset ℕ) : Prop :=
  IsCommittee p k W ∧ ∀ c ∈ W, ∀ d < p.numCand, d ∉ W → votes p d * f (seats p W d + 1) ≤ votes p c * f (seats p W c)

/-- D'Hondt (Jefferson): divisors 1, 2, 3, … -/
def DHondt (p : Profile) (k : ℕ) (W : Finset ℕ) : Prop :=
  IsCommittee p k W ∧ ∀ c ∈ W, ∀ d < p.numCand, d ∉ W → votes p d / (seats p W d + 1) ≤ votes p c / seats p W c

/-- Sainte-Laguë (Webster): divisors 1, 3, 5, … -/
def SainteLague (p : Profile) (k : ℕ) (W : Finset ℕ) : Prop :=
  IsCommittee p k W ∧ ∀ c ∈ W, ∀ d < p.numCand, d ∉ W →
    votes p d / (2 * seats p W d + 1) ≤ votes p c / (2 * seats p W c - 1)

/-- Every party has its lower quota, votes · k / (all votes) rounded down, or all its candidates if it has fewer of them. -/
def LowerQuotas (p : Profile) (k : ℕ) (W : Finset ℕ) : Prop :=
  W ⊆ Finset.range p.numCand ∧
    ∀ c < p.numCand, seats p W c = min ⌊votes p c * k / total p⌋₊ (seats p (Finset.range p.numCand) c)

/-- Largest remainders (Hamilton), with the quota (all votes)/k: every seat costs one quota, a party's claim to the next seat is the
number of votes it has not yet paid for its seats (0 if it has spent all of them).  No party without a seat for `d` has a better claim
than the party of a member `c` had to its last seat. -/
def LargestRemainders (p : Profile) (k : ℕ) (W : Finset ℕ) : Prop :=
  IsCommittee p k W ∧ ∀ c ∈ W, ∀ d < p.numCand, d ∉ W →
    max 0 (votes p d - seats p W d * (total p / k)) ≤ max 0 (votes p c - ((seats p W c : ℚ) - 1) * (total p / k))

end Abc.Spec
