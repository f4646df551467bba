import Verif.Spec.Run
import Verif.Spec.Rules
import Verif.Model.EqualShares

/-!
# Specification of the Method of Equal Shares (Peters and Skowron), with weighted voters
-/

namespace Abc.Spec

/-- What the supporters of `c` pay together if each of them pays at most `q` per unit of weight and at most her budget. -/
def payments (p : Profile) (b : VoterMap p) (c : ℕ) (q : ℚ) : ℚ :=
  ∑ i ∈ backers p c, min (b i) (q * (p.voters.get i).weight)

/-- `c` is affordable at price `q` and not at a lower one: the supporters can pay exactly 1. -/
def IsPrice (p : Profile) (b : VoterMap p) (c : ℕ) (q : ℚ) : Prop :=
  payments p b c q = 1 ∧ ∀ q' < q, payments p b c q' < 1

/-- The supporters of `c` have enough money. -/
def Affordable (p : Profile) (b : VoterMap p) (c : ℕ) : Prop := 1 ≤ ∑ i ∈ backers p c, b i

/-- The price (only meaningful for affordable candidates, see `IsPrice`). -/
noncomputable def price (p : Profile) (b : VoterMap p) (c : ℕ) : ℚ := Classical.epsilon (IsPrice p b c)

/-- Equal Shares elects a candidate with the lowest price. -/
def MESBest (p : Profile) (W : List ℕ) (b : VoterMap p) (c : ℕ) : Prop :=
  c < p.numCand ∧ c ∉ W ∧ ∃ q, IsPrice p b c q ∧ ∀ d < p.numCand, d ∉ W → ∀ q', IsPrice p b d q' → q ≤ q'

/-- The budgets after buying `c`. -/
noncomputable def mesUpd (p : Profile) (_W : List ℕ) (b : VoterMap p) (c : ℕ) : VoterMap p :=
  fun i => if i ∈ backers p c then b i - min (b i) (price p b c * (p.voters.get i).weight) else b i

/-- No further candidate can be bought. -/
def MESDone (p : Profile) (W : List ℕ) (b : VoterMap p) : Prop := ∀ c < p.numCand, c ∉ W → ¬ Affordable p b c

/-- The start budgets: every voter gets `r` per unit of weight. -/
def budgetOf (p : Profile) (r : ℚ) : VoterMap p := fun i => (p.voters.get i).weight * r

/-- How an incomplete committee (elected candidates `W`, budgets `b`) may be completed to the final committee `A`. -/
def Completed (p : Profile) (k : ℕ) (completion : Completion) (W : List ℕ) (b : VoterMap p) (A : Finset ℕ) : Prop :=
  match completion with
  | .none => A = W.toFinset
  | .seqphragmen => ∃ V x, Run (PhragBest p) (phragUpd p) W (fun i => - b i / (p.voters.get i).weight) V x ∧ V.length = k ∧
      V.toFinset = A
  | .av => IsCommittee p k A ∧ W.toFinset ⊆ A ∧
      ∀ B, IsCommittee p k B → W.toFinset ⊆ B → ∑ c ∈ B, candScore .av p c ≤ ∑ c ∈ A, candScore .av p c
  | _ => False

/-- The outcomes of Equal Shares with budget `r` per unit of weight: buy candidates until `k` are elected or nothing is
affordable; complete in the latter case. -/
def MESWinner (p : Profile) (k : ℕ) (completion : Completion) (r : ℚ) (A : Finset ℕ) : Prop :=
  ∃ W b, Run (MESBest p) (mesUpd p) [] (budgetOf p r) W b ∧
    ((W.length = k ∧ W.toFinset = A) ∨ (W.length < k ∧ MESDone p W b ∧ Completed p k completion W b A))

end Abc.Spec
