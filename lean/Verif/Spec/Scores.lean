import Verif.Spec.Basic
import Verif.Model.Scores
import Mathlib.Data.Finset.SymmDiff

/-!
# Specification of scores
-/

namespace Abc.Spec

/-- The Thiele score of a committee: every voter contributes weight times `f 1 + … + f (number of approved members)`. -/
def score (f : ℕ → ℚ) (p : Profile) (W : Finset ℕ) : ℚ :=
  (p.voters.map (fun v => v.weight * ∑ i ∈ Finset.range (util v W), f (i + 1))).sum

/-- Hamming distance. -/
def dist (v : Voter) (W : Finset ℕ) : ℕ := (symmDiff v.A W).card

end Abc.Spec
