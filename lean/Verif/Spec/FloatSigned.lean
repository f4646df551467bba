import Verif.Spec.Float

/-!
# Accuracy of the arithmetic of "float-fractions" for numbers of arbitrary sign
-/

namespace Abc.Spec

/-- `sum` makes an error of at most 5 · 2⁻⁵³ per summand, relative to the sum of the absolute values. -/
def SumSigned {F : Type} (val : F → ℚ) (sum : List F → F) : Prop :=
  ∀ l : List F, l.length ≤ 10 ^ 6 → |val (sum l) - (l.map val).sum| ≤ 5 * l.length / 2 ^ 53 * (l.map (fun x => |val x|)).sum

/-- Rounding errors of at most 4 · 2⁻⁵³, relative to the operands (addition, subtraction) or the result (multiplication, division). -/
structure SignedAccurate {F : Type} (A : Arith F) : Prop where
  add : ∀ x y, |A.val (A.add x y) - (A.val x + A.val y)| ≤ 4 / 2 ^ 53 * (|A.val x| + |A.val y|)
  sub : ∀ x y, |A.val (A.sub x y) - (A.val x - A.val y)| ≤ 4 / 2 ^ 53 * (|A.val x| + |A.val y|)
  mul : ∀ x y, |A.val (A.mul x y) - A.val x * A.val y| ≤ 4 / 2 ^ 53 * |A.val x * A.val y|
  div : ∀ x y, A.val y ≠ 0 → |A.val (A.div x y) - A.val x / A.val y| ≤ 4 / 2 ^ 53 * |A.val x / A.val y|
  sum : SumSigned A.val A.sum

end Abc.Spec
