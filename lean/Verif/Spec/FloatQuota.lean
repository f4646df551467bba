import Verif.Model.PyNum
import Verif.Spec.Prices

/-!
# Checks with quotas that are floats
-/

namespace Abc.Spec

/-- The weights are stored as ints or Fractions. -/
def StoresExactly (weight : ℚ → PyNum) : Prop := ∀ x, (∃ z : ℤ, weight x = .int z ∧ (z : ℚ) = x) ∨ weight x = .frac x

/-- The check of property `name` answers correctly up to the difference of two quotas: True only if the committee has the property for the
larger quota, False only if it does not have it for the smaller one. -/
def DecidesBetween (name : String) (p : Profile) (W : Finset ℕ) (lo hi : ℚ) (r : Except Err Bool) : Prop :=
  ∃ b, r = .ok b ∧ (b = true → Satisfies name p W hi) ∧ (b = false → ¬ Satisfies name p W lo)

end Abc.Spec
