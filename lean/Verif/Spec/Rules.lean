import Verif.Spec.Scores
import Verif.Model.Optimal
import Mathlib.Data.List.Lex
import Mathlib.Data.Multiset.Sort

/-!
# Specification of the optimisation-based rules
-/

namespace Abc.Spec

/-- `A` is a committee of size `k` with maximal Thiele score for the marginal function `f`. -/
def ThieleOpt (f : ℕ → ℚ) (p : Profile) (k : ℕ) (A : Finset ℕ) : Prop :=
  IsCommittee p k A ∧ ∀ B, IsCommittee p k B → score f p B ≤ score f p A

/-- Total weight of the voters who approve at least `l` members of `W`. -/
def coverage (p : Profile) (l : ℕ) (W : Finset ℕ) : ℚ :=
  (p.voters.map (fun v => if l ≤ util v W then v.weight else 0)).sum

/-- The vector (weight of voters with ≥ 1, …, ≥ k approved members). -/
def coverageVector (p : Profile) (k : ℕ) (W : Finset ℕ) : List ℚ :=
  (List.range k).map (fun i => coverage p (i + 1) W)

/-- lex-CC winners: `coverageVector` lexicographically maximal (`<` on lists is the lexicographic order). -/
def LexccOpt (p : Profile) (k : ℕ) (A : Finset ℕ) : Prop :=
  IsCommittee p k A ∧ ∀ B, IsCommittee p k B → ¬ coverageVector p k A < coverageVector p k B

/-- Minimax-AV winners: no committee has a smaller bound `d` on all Hamming distances. -/
def MinimaxavOpt (p : Profile) (k : ℕ) (A : Finset ℕ) : Prop :=
  IsCommittee p k A ∧ ∀ B, IsCommittee p k B → ∀ d : ℕ, (∀ v ∈ p.voters, dist v B ≤ d) → ∀ v ∈ p.voters, dist v A ≤ d

/-- The voters' Hamming distances sorted decreasingly. -/
noncomputable def distVector (p : Profile) (W : Finset ℕ) : List ℕ :=
  Multiset.sort (p.voters.map (fun v => dist v W) : Multiset ℕ) (· ≥ ·)

/-- lex-Minimax-AV winners: `distVector` lexicographically minimal. -/
def LexminimaxavOpt (p : Profile) (k : ℕ) (A : Finset ℕ) : Prop :=
  IsCommittee p k A ∧ ∀ B, IsCommittee p k B → ¬ distVector p B < distVector p A

/-- The committees with the largest sum of scores, if candidate `c` has score `s c`. -/
def TopCommittee (p : Profile) (s : ℕ → ℚ) (k : ℕ) (A : Finset ℕ) : Prop :=
  IsCommittee p k A ∧ ∀ B, IsCommittee p k B → ∑ c ∈ B, s c ≤ ∑ c ∈ A, s c

/-- Approval score / satisfaction approval score of a single candidate. -/
def candScore (r : SepRule) (p : Profile) (c : ℕ) : ℚ :=
  (p.voters.map (fun v => if c ∈ v.A then (match r with
    | .av => v.weight
    | .sav => v.weight / (v.A.card : ℚ)) else 0)).sum

/-- AV / SAV winners: committees whose total candidate score is maximal. -/
def SepOpt (r : SepRule) (p : Profile) (k : ℕ) (A : Finset ℕ) : Prop :=
  IsCommittee p k A ∧ ∀ B, IsCommittee p k B → ∑ c ∈ B, candScore r p c ≤ ∑ c ∈ A, candScore r p c

end Abc.Spec
