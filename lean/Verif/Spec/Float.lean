import Verif.Model.PyNum

/-!
# What is assumed of the arithmetic of "float-fractions"

Only bounds by integers: rounding to nearest does not carry a result across a representable number, and all integers up to 2 ^ 53 are
representable.
-/

namespace Abc.Spec

/-- The built-in function `sum` respects integer bounds and signs. -/
structure SumSound {F : Type} (val : F → ℚ) (sum : List F → F) : Prop where
  le : ∀ l : List (F × ℤ), (∀ e ∈ l, 0 ≤ e.2 ∧ val e.1 ≤ e.2) → (l.map Prod.snd).sum ≤ 2 ^ 53 →
    val (sum (l.map Prod.fst)) ≤ (l.map Prod.snd).sum
  ge : ∀ l : List (F × ℤ), (∀ e ∈ l, 0 ≤ e.2 ∧ (e.2 : ℚ) ≤ val e.1) → (l.map Prod.snd).sum ≤ 2 ^ 53 →
    ((l.map Prod.snd).sum : ℚ) ≤ val (sum (l.map Prod.fst))
  pos : ∀ l : List F, l ≠ [] → (∀ x ∈ l, 0 < val x) → 0 < val (sum l)

/-- Operations respect integer bounds; `isclose` is reflexive and separates moderate numbers that differ by at least 1. -/
structure Sound {F : Type} (A : Arith F) : Prop where
  val_int : ∀ z, A.val (A.int z) = z
  val_weight : ∀ q, A.val (A.weight q) = q
  val_neg : ∀ x, A.val (A.neg x) = - A.val x
  isclose_refl : ∀ x, A.isclose x x = true
  isclose_far : ∀ x y, A.val x + 1 ≤ A.val y → 0 ≤ A.val y → A.val y ≤ 10 ^ 11 → A.isclose y x = false
  add_le : ∀ x y, ∀ a b : ℤ, 0 ≤ a → 0 ≤ b → a + b ≤ 2 ^ 53 → A.val x ≤ a → A.val y ≤ b → A.val (A.add x y) ≤ a + b
  add_ge : ∀ x y, ∀ a b : ℤ, 0 ≤ a → 0 ≤ b → a + b ≤ 2 ^ 53 → a ≤ A.val x → b ≤ A.val y → a + b ≤ A.val (A.add x y)
  sub_le : ∀ x y, ∀ a b : ℤ, 0 ≤ b → b ≤ a → a ≤ 2 ^ 53 → A.val x ≤ a → b ≤ A.val y → A.val (A.sub x y) ≤ a - b
  sub_ge : ∀ x y, ∀ a b : ℤ, 0 ≤ b → b ≤ a → a ≤ 2 ^ 53 → a ≤ A.val x → A.val y ≤ b → a - b ≤ A.val (A.sub x y)
  sub_nonneg : ∀ x y, A.val y ≤ A.val x → 0 ≤ A.val (A.sub x y)
  mul_le_left : ∀ x y, ∀ a b : ℤ, 0 ≤ a → a ≤ 2 ^ 53 → 0 ≤ b → b ≤ 2 ^ 53 → a * b ≤ 2 ^ 53 → A.val x = a → A.val y ≤ b →
    A.val (A.mul x y) ≤ a * b
  mul_le_right : ∀ x y, ∀ a b : ℤ, 0 ≤ a → a ≤ 2 ^ 53 → 0 ≤ b → b ≤ 2 ^ 53 → a * b ≤ 2 ^ 53 → A.val x ≤ a → A.val y = b →
    A.val (A.mul x y) ≤ a * b
  mul_ge : ∀ x y, ∀ a b : ℤ, 0 ≤ a → a ≤ 2 ^ 53 → 0 ≤ b → b ≤ 2 ^ 53 → a * b ≤ 2 ^ 53 → A.val x = a → b ≤ A.val y →
    a * b ≤ A.val (A.mul x y)
  div_le : ∀ x y, ∀ a b : ℤ, 0 ≤ a → 0 < b → b ≤ 2 ^ 53 → a * b ≤ 2 ^ 53 → A.val y = b → A.val x ≤ a * b → A.val (A.div x y) ≤ a
  div_nonneg : ∀ x y, 0 ≤ A.val x → 0 < A.val y → 0 ≤ A.val (A.div x y)
  sum : SumSound A.val A.sum

/-- `Fraction(n, x)` is exact if `x` is the sum of integer weights. -/
def FractionExact {F : Type} (A : Arith F) : Prop :=
  ∀ (n : ℕ) (l : List ℤ), 0 < l.sum → ∃ f, A.fraction n (A.sum (l.map (fun z : ℤ => A.weight z))) = .ok f ∧ A.val f = n / l.sum

/-! ## Accuracy -/

/-- `x` and `y` agree up to `m` relative errors of 2⁻⁵³. -/
def Near (m : ℕ) (x y : ℚ) : Prop := y * (1 - 1 / 2 ^ 53) ^ m ≤ x ∧ x * (1 - 1 / 2 ^ 53) ^ m ≤ y

/-- `sum` makes at most two relative errors (conversion and addition) per summand if the summands are not negative. -/
def SumAccurate {F : Type} (val : F → ℚ) (sum : List F → F) : Prop :=
  ∀ (m : ℕ) (l : List (F × ℚ)), (∀ e ∈ l, 0 ≤ e.2 ∧ Near m (val e.1) e.2) →
    Near (m + 2 * l.length) (val (sum (l.map Prod.fst))) (l.map Prod.snd).sum

/-- Operations on numbers that are not negative have a small relative error; `isclose` decides up to the tolerance 10⁻¹². -/
structure Accurate {F : Type} (A : Arith F) : Prop where
  add : ∀ x y, 0 ≤ A.val x → 0 ≤ A.val y → Near 2 (A.val (A.add x y)) (A.val x + A.val y)
  mul : ∀ x y, 0 ≤ A.val x → 0 ≤ A.val y → Near 3 (A.val (A.mul x y)) (A.val x * A.val y)
  div : ∀ x y, 0 ≤ A.val x → 0 < A.val y → Near 3 (A.val (A.div x y)) (A.val x / A.val y)
  isclose_true : ∀ x y, 0 ≤ A.val x → 0 ≤ A.val y → |A.val x - A.val y| ≤ 9 / 10 ^ 13 * max 1 (max (A.val x) (A.val y)) →
    A.isclose x y = true
  isclose_false : ∀ x y, 0 ≤ A.val x → 0 ≤ A.val y → 11 / 10 ^ 13 * max 1 (max (A.val x) (A.val y)) < |A.val x - A.val y| →
    A.isclose x y = false
  sum : SumAccurate A.val A.sum

end Abc.Spec
