import Verif.Spec.Basic

/-!
# Specification of the proportionality axioms

`W` is the committee, `q` the quota (the weight that entitles a group to one representative).  A group of voters is a set of
positions in the list of voters.
-/

namespace Abc.Spec

/-- A group of voters: a finite set of voter positions. -/
abbrev Group (p : Profile) := Finset (Fin p.voters.length)

/-- The total weight of a group. -/
def wt (p : Profile) (G : Group p) : ℚ := ∑ i ∈ G, (p.voters.get i).weight

/-- Total weight of all voters. -/
def total (p : Profile) : ℚ := ∑ i : Fin p.voters.length, (p.voters.get i).weight

/-- Approval set of voter `i`. -/
def appr (p : Profile) (i : Fin p.voters.length) : Finset ℕ := (p.voters.get i).A

/-- Number of committee members approved by voter `i`. -/
def sat (p : Profile) (W : Finset ℕ) (i : Fin p.voters.length) : ℕ := (appr p i ∩ W).card

/-- Justified representation. -/
def JR (p : Profile) (W : Finset ℕ) (q : ℚ) : Prop :=
  ∀ (G : Group p) (c : ℕ), q ≤ wt p G → (∀ i ∈ G, c ∈ appr p i) → ∃ i ∈ G, (appr p i ∩ W).Nonempty

/-- `G` is an `ℓ`-cohesive group with joint candidates `T`. -/
def Cohesive (p : Profile) (q : ℚ) (ℓ : ℕ) (G : Group p) (T : Finset ℕ) : Prop :=
  1 ≤ ℓ ∧ (ℓ : ℚ) * q ≤ wt p G ∧ ℓ ≤ T.card ∧ ∀ i ∈ G, T ⊆ appr p i

/-- Proportional justified representation: an `ℓ`-cohesive group jointly approves at least `ℓ` committee members. -/
def PJR (p : Profile) (W : Finset ℕ) (q : ℚ) : Prop :=
  ∀ ℓ G T, Cohesive p q ℓ G T → ℓ ≤ (G.biUnion (appr p) ∩ W).card

/-- Extended justified representation: some member of an `ℓ`-cohesive group approves at least `ℓ` committee members. -/
def EJR (p : Profile) (W : Finset ℕ) (q : ℚ) : Prop :=
  ∀ ℓ G T, Cohesive p q ℓ G T → ∃ i ∈ G, ℓ ≤ sat p W i

/-- EJR+ (Brill and Peters): a group deserving `ℓ` members whose voters all approve an unelected candidate `c` contains a voter
approving at least `ℓ` committee members. -/
def EJRplus (p : Profile) (W : Finset ℕ) (q : ℚ) : Prop :=
  ∀ (ℓ : ℕ) (G : Group p) (c : ℕ), 1 ≤ ℓ → (ℓ : ℚ) * q ≤ wt p G → c ∉ W → (∀ i ∈ G, c ∈ appr p i) → ∃ i ∈ G, ℓ ≤ sat p W i

/-- Full justified representation. -/
def FJR (p : Profile) (W : Finset ℕ) (q : ℚ) : Prop :=
  ∀ (G : Group p) (T : Finset ℕ) (β : ℕ), G.Nonempty → 1 ≤ β → (T.card : ℚ) * q ≤ wt p G →
    (∀ i ∈ G, β ≤ (appr p i ∩ T).card) → ∃ i ∈ G, β ≤ sat p W i

/-- Core stability: no group can deviate to a candidate set it can afford and that all its members strictly prefer. -/
def Core (p : Profile) (W : Finset ℕ) (q : ℚ) : Prop :=
  ∀ (G : Group p) (T : Finset ℕ), G.Nonempty → (T.card : ℚ) * q ≤ wt p G → ∃ i ∈ G, (appr p i ∩ T).card ≤ sat p W i

/-- Pareto optimality among committees of the same size. -/
def ParetoOptimal (p : Profile) (W : Finset ℕ) : Prop := ∀ X, IsCommittee p W.card X → ¬ Dominates p X W

/-- A price system: everybody has the same budget `b` per unit of weight and pays only for approved candidates; elected candidates are
paid 1 in total, the other candidates nothing. -/
structure PriceSystem (p : Profile) (W : Finset ℕ) (b : ℚ) (pay : Fin p.voters.length → ℕ → ℚ) : Prop where
  budget_nonneg : 0 ≤ b
  nonneg : ∀ i c, 0 ≤ pay i c
  approved : ∀ i c, pay i c ≠ 0 → c ∈ appr p i
  budget : ∀ i, ∑ c ∈ Finset.range p.numCand, pay i c ≤ (p.voters.get i).weight * b
  elected : ∀ c ∈ W, ∑ i, pay i c = 1
  other : ∀ c, c < p.numCand → c ∉ W → ∑ i, pay i c = 0

/-- What voter `i` has left after paying for the committee. -/
def leftAfter (p : Profile) (W : Finset ℕ) (b : ℚ) (pay : Fin p.voters.length → ℕ → ℚ) (i : Fin p.voters.length) : ℚ :=
  (p.voters.get i).weight * b - ∑ c ∈ W, pay i c

/-- Priceability: there is a price system in which the supporters of no unelected candidate have more than 1 left in total. -/
def Priceable (p : Profile) (W : Finset ℕ) : Prop :=
  ∃ b pay, PriceSystem p W b pay ∧
    ∀ c, c < p.numCand → c ∉ W → ∑ i with c ∈ appr p i, leftAfter p W b pay i ≤ 1

/-- Stable priceability: moreover, the supporters of an unelected candidate could not raise more than 1 even if each of them could
instead give up the payment for one elected candidate. -/
def StablePriceable (p : Profile) (W : Finset ℕ) : Prop :=
  ∃ b pay, PriceSystem p W b pay ∧
    ∀ c, c < p.numCand → c ∉ W →
      ∑ i with c ∈ appr p i, (insert (leftAfter p W b pay i) (W.image (pay i))).max' (Finset.insert_nonempty _ _) ≤ 1

/-- The quota in force: the given one, or the Hare quota (total weight divided by the committee size). -/
def quotaValue (p : Profile) (k : ℕ) (quota : Option ℚ) : ℚ := quota.getD (total p / k)

end Abc.Spec
