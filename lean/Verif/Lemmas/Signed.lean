import Verif.Spec.FloatSigned
import Verif.Lemmas.Near

/-!
# Python's arithmetic is accurate for numbers of arbitrary sign
-/

namespace Abc
open Spec

namespace PyNum

theorem toFloat_error (x : PyNum) : |x.toFloat - x.val| ≤ |x.val| / 2 ^ 53 := by rw [toFloat_eq]; exact rnd_error _

/-- Rounding a perturbed number. -/
theorem rnd_perturbed {a b ε : ℚ} (h : |a - b| ≤ ε) : |rnd a - b| ≤ ε + (|b| + ε) / 2 ^ 53 := by
  have h1 := rnd_error a
  have h2 : |a| ≤ |b| + ε := by
    have : |a| - |b| ≤ |a - b| := abs_sub_abs_le_abs_sub a b
    linarith
  have h3 : |rnd a - b| ≤ |rnd a - a| + |a - b| := abs_sub_le _ _ _
  have h4 : |a| / 2 ^ 53 ≤ (|b| + ε) / 2 ^ 53 := by gcongr
  linarith

theorem signed_add (x y : PyNum) : |(arith (· + ·) (· + ·) x y).val - (x.val + y.val)| ≤ 4 / 2 ^ 53 * (|x.val| + |y.val|) := by
  have hx := abs_nonneg x.val
  have hy := abs_nonneg y.val
  rcases add_cases x y with h | ⟨h, -⟩
  · rw [h, sub_self, abs_zero]; positivity
  · rw [h]
    have e : |x.toFloat + y.toFloat - (x.val + y.val)| ≤ (|x.val| + |y.val|) / 2 ^ 53 := by
      rw [show x.toFloat + y.toFloat - (x.val + y.val) = (x.toFloat - x.val) + (y.toFloat - y.val) by ring]
      refine (abs_add_le _ _).trans ?_
      have := toFloat_error x
      have := toFloat_error y
      rw [add_div]; linarith
    have h1 := rnd_perturbed e
    have h2 : |x.val + y.val| ≤ |x.val| + |y.val| := abs_add_le _ _
    norm_num at h1 ⊢
    linarith

theorem signed_sub (x y : PyNum) : |(arith (· - ·) (· - ·) x y).val - (x.val - y.val)| ≤ 4 / 2 ^ 53 * (|x.val| + |y.val|) := by
  have hx := abs_nonneg x.val
  have hy := abs_nonneg y.val
  rcases sub_cases x y with h | ⟨h, -⟩
  · rw [h, sub_self, abs_zero]; positivity
  · rw [h]
    have e : |x.toFloat - y.toFloat - (x.val - y.val)| ≤ (|x.val| + |y.val|) / 2 ^ 53 := by
      rw [show x.toFloat - y.toFloat - (x.val - y.val) = (x.toFloat - x.val) - (y.toFloat - y.val) by ring]
      refine (abs_sub _ _).trans ?_
      have := toFloat_error x
      have := toFloat_error y
      rw [add_div]; linarith
    have h1 := rnd_perturbed e
    have h2 : |x.val - y.val| ≤ |x.val| + |y.val| := abs_sub _ _
    norm_num at h1 ⊢
    linarith

theorem signed_mul (x y : PyNum) : |(arith (· * ·) (· * ·) x y).val - x.val * y.val| ≤ 4 / 2 ^ 53 * |x.val * y.val| := by
  rcases mul_cases x y with h | ⟨h, -⟩
  · rw [h, sub_self, abs_zero]; positivity
  · rw [h]
    have hx := abs_nonneg x.val
    have hy := abs_nonneg y.val
    have hxy : |x.val * y.val| = |x.val| * |y.val| := abs_mul _ _
    have e : |x.toFloat * y.toFloat - x.val * y.val| ≤ (2 / 2 ^ 53 + 1 / 2 ^ 106) * (|x.val| * |y.val|) := by
      rw [show x.toFloat * y.toFloat - x.val * y.val = (x.toFloat - x.val) * y.val + x.val * (y.toFloat - y.val) +
        (x.toFloat - x.val) * (y.toFloat - y.val) by ring]
      refine (abs_add_three _ _ _).trans ?_
      rw [abs_mul, abs_mul, abs_mul]
      have h1 := toFloat_error x
      have h2 := toFloat_error y
      have a1 : |x.toFloat - x.val| * |y.val| ≤ |x.val| / 2 ^ 53 * |y.val| := by gcongr
      have a2 : |x.val| * |y.toFloat - y.val| ≤ |x.val| * (|y.val| / 2 ^ 53) := by gcongr
      have a3 : |x.toFloat - x.val| * |y.toFloat - y.val| ≤ |x.val| / 2 ^ 53 * (|y.val| / 2 ^ 53) := by gcongr
      refine (add_le_add (add_le_add a1 a2) a3).trans (le_of_eq ?_)
      ring
    have h1 := rnd_perturbed e
    have hz : 0 ≤ |x.val| * |y.val| := by positivity
    rw [hxy] at h1 ⊢
    norm_num at h1 ⊢
    linarith

theorem signed_div (x y : PyNum) (h0 : y.val ≠ 0) : |(div x y).val - x.val / y.val| ≤ 4 / 2 ^ 53 * |x.val / y.val| := by
  have hz : 0 ≤ |x.val / y.val| := abs_nonneg _
  rcases div_cases x y with h | h | h
  · rw [h, sub_self, abs_zero]; positivity
  · rw [h]
    refine (rnd_error _).trans ?_
    norm_num
    linarith
  · rw [h]
    have hx := abs_nonneg x.val
    have hy : 0 < |y.val| := abs_pos.2 h0
    have h1 := toFloat_error x
    have h2 := toFloat_error y
    have hyf : |y.val| * (1 - 1 / 2 ^ 53) ≤ |y.toFloat| := by
      have : |y.val| - |y.toFloat| ≤ |y.val - y.toFloat| := abs_sub_abs_le_abs_sub _ _
      rw [abs_sub_comm] at this
      linarith
    have hyf0 : 0 < |y.toFloat| := lt_of_lt_of_le (mul_pos hy (by norm_num)) hyf
    have hyf1 : y.toFloat ≠ 0 := abs_pos.1 hyf0
    have e : |x.toFloat / y.toFloat - x.val / y.val| ≤ (2 / 2 ^ 53 / (1 - 1 / 2 ^ 53)) * |x.val / y.val| := by
      rw [show x.toFloat / y.toFloat - x.val / y.val = ((x.toFloat - x.val) * y.val - x.val * (y.toFloat - y.val)) / (y.toFloat * y.val) by
        field_simp; ring]
      rw [abs_div, abs_mul, abs_div, div_le_iff₀ (by positivity)]
      refine (abs_sub _ _).trans ?_
      rw [abs_mul, abs_mul]
      have a1 : |x.toFloat - x.val| * |y.val| ≤ |x.val| / 2 ^ 53 * |y.val| := by gcongr
      have a2 : |x.val| * |y.toFloat - y.val| ≤ |x.val| * (|y.val| / 2 ^ 53) := by gcongr
      have a3 : 2 / 2 ^ 53 / (1 - 1 / 2 ^ 53) * (|x.val| / |y.val|) * (|y.val| * (1 - 1 / 2 ^ 53) * |y.val|) ≤
          2 / 2 ^ 53 / (1 - 1 / 2 ^ 53) * (|x.val| / |y.val|) * (|y.toFloat| * |y.val|) := by
        have : (0 : ℚ) ≤ 2 / 2 ^ 53 / (1 - 1 / 2 ^ 53) := by norm_num
        gcongr
      refine (add_le_add a1 a2).trans (le_trans (le_of_eq ?_) a3)
      field_simp
      ring
    have h3 := rnd_perturbed e
    norm_num at h3 ⊢
    linarith

theorem runningSum_signed : SumSigned PyNum.val runningSum := by
  intro l hl
  have main : ∀ (l : List PyNum) (acc : PyNum) (S T : ℚ) (m : ℕ), m + l.length ≤ 10 ^ 6 → |S| ≤ T → |acc.val - S| ≤ 5 * m / 2 ^ 53 * T →
      |(l.foldl (arith (· + ·) (· + ·)) acc).val - (S + (l.map val).sum)| ≤
        5 * (m + l.length : ℕ) / 2 ^ 53 * (T + (l.map (fun x => |val x|)).sum) := by
    intro l
    induction l with
    | nil => intro acc S T m _ _ h; simpa using h
    | cons x l ih =>
      intro acc S T m hm hST h
      simp only [List.length_cons] at hm
      have hT : 0 ≤ T := (abs_nonneg S).trans hST
      have hx := abs_nonneg x.val
      have hm' : (m : ℚ) ≤ 10 ^ 6 := by exact_mod_cast (by omega : m ≤ 10 ^ 6)
      have hm0 : (0 : ℚ) ≤ m := by positivity
      have hacc : |acc.val| ≤ T + 5 * m / 2 ^ 53 * T := by
        have : |acc.val| - |S| ≤ |acc.val - S| := abs_sub_abs_le_abs_sub _ _
        linarith
      have hsmall : 5 * (m : ℚ) / 2 ^ 53 * T ≤ 1 / 4 * T := by
        refine mul_le_mul_of_nonneg_right ?_ hT
        rw [div_le_iff₀ (by norm_num)]
        have e : (1 / 4 * 2 ^ 53 : ℚ) = 2251799813685248 := by norm_num
        have e' : (10 ^ 6 : ℚ) = 1000000 := by norm_num
        rw [e]; rw [e'] at hm'
        linarith
      have hadd := signed_add acc x
      have := ih (arith (· + ·) (· + ·) acc x) (S + x.val) (T + |x.val|) (m + 1) (by omega)
        ((abs_add_le _ _).trans (by linarith)) (by
          rw [show (arith (· + ·) (· + ·) acc x).val - (S + x.val) = ((arith (· + ·) (· + ·) acc x).val - (acc.val + x.val)) +
            (acc.val - S) by ring]
          refine (abs_add_le _ _).trans ?_
          have a1 : 4 / 2 ^ 53 * (|acc.val| + |x.val|) ≤ 4 / 2 ^ 53 * (5 / 4 * T + |x.val|) := by
            gcongr
            linarith
          push_cast
          have a2 : 5 * (m : ℚ) / 2 ^ 53 * T ≤ 5 * m / 2 ^ 53 * (T + |x.val|) := by gcongr; linarith
          have e : 5 * ((m : ℚ) + 1) / 2 ^ 53 * (T + |x.val|) = 5 * m / 2 ^ 53 * (T + |x.val|) + 5 / 2 ^ 53 * (T + |x.val|) := by ring
          rw [e]
          norm_num at a1 a2 hadd h ⊢
          linarith)
      simp only [List.foldl_cons, List.map_cons, List.sum_cons, List.length_cons]
      rw [show m + (l.length + 1) = m + 1 + l.length by ring, ← add_assoc, ← add_assoc]
      exact this
  have := main l (.int 0) 0 0 0 (by simpa using hl) (by simp) (by simp [val])
  simpa [runningSum] using this

end PyNum

open PyNum in
/-- Python's arithmetic is accurate. -/
theorem pyArith_signed (weight : ℚ → PyNum) (sum : List PyNum → PyNum) (hs : SumSigned PyNum.val sum) :
    SignedAccurate (pyArith weight sum) where
  add := signed_add
  sub := signed_sub
  mul := signed_mul
  div := signed_div
  sum := hs

end Abc
