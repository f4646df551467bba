import Verif.Spec.Run

/-!
# Specification of Phragmén-Eneström and of the consensus rule
-/

namespace Abc.Spec

/-- Total remaining budget of the supporters of `c`; voters in debt do not count. -/
def support (p : Profile) (b : VoterMap p) (c : ℕ) : ℚ := ∑ i ∈ backers p c with 0 < b i, b i

/-- `c` is an unelected candidate of maximal support. -/
def SupportBest (p : Profile) (W : List ℕ) (b : VoterMap p) (c : ℕ) : Prop :=
  c < p.numCand ∧ c ∉ W ∧ ∀ d < p.numCand, d ∉ W → support p b d ≤ support p b c

/-- Eneström: the supporters of `c` pay the price `q` in proportion to their budgets, or everything they have if they cannot
afford it. -/
def enestroemUpd (p : Profile) (q : ℚ) (_W : List ℕ) (b : VoterMap p) (c : ℕ) : VoterMap p :=
  fun i => if i ∈ backers p c then (if q < support p b c then b i - q * (b i / support p b c) else 0) else b i

/-- Eneström's winning committees: voters start with their weights, the price is (total weight)/k. -/
def EnestroemWinner (p : Profile) (k : ℕ) (A : Finset ℕ) : Prop :=
  RunWinner (SupportBest p) (enestroemUpd p (total p / k)) (fun i => (p.voters.get i).weight) k A

/-- Budgets after every voter received an income equal to the weight. -/
def income (p : Profile) (b : VoterMap p) : VoterMap p := fun i => b i + (p.voters.get i).weight

/-- Consensus rule: after the income has been paid, the candidate of maximal support is elected. -/
def ConsensusBest (p : Profile) (W : List ℕ) (b : VoterMap p) (c : ℕ) : Prop := SupportBest p W (income p b) c

/-- Consensus rule: the supporters of `c` that are not in debt pay in total the total weight, in proportion to their weights. -/
def consensusUpd (p : Profile) (_W : List ℕ) (b : VoterMap p) (c : ℕ) : VoterMap p :=
  fun i => if i ∈ backers p c ∧ 0 < income p b i then
      income p b i - total p * ((p.voters.get i).weight / ∑ j ∈ backers p c with 0 < income p b j, (p.voters.get j).weight)
    else income p b i

/-- The winning committees of the consensus rule. -/
def ConsensusWinner (p : Profile) (k : ℕ) (A : Finset ℕ) : Prop :=
  RunWinner (ConsensusBest p) (consensusUpd p) (fun _ => 0) k A

end Abc.Spec
