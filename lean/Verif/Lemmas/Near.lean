import Verif.Lemmas.PyNum
import Mathlib.Algebra.Order.Ring.Pow

/-!
# Relative errors
-/

namespace Abc
open Spec

/-- the bound of one relative error -/
local notation "θ" => (1 - 1 / 2 ^ 53 : ℚ)

theorem theta_pos : (0 : ℚ) < θ := by norm_num

theorem theta_le : θ ≤ 1 := by norm_num

theorem theta_pow_pos (m : ℕ) : (0 : ℚ) < θ ^ m := pow_pos theta_pos m

theorem theta_pow_le (m : ℕ) : θ ^ m ≤ 1 := pow_le_one₀ theta_pos.le theta_le

theorem theta_pow_anti {m n : ℕ} (h : m ≤ n) : θ ^ n ≤ θ ^ m := pow_le_pow_of_le_one theta_pos.le theta_le h

/-- Bernoulli -/
theorem theta_pow_ge (m : ℕ) : 1 - (m : ℚ) / 2 ^ 53 ≤ θ ^ m := by
  have := one_add_mul_le_pow (a := (-1 / 2 ^ 53 : ℚ)) (by norm_num) m
  have e : (1 + -1 / 2 ^ 53 : ℚ) = θ := by ring
  rw [e] at this
  calc 1 - (m : ℚ) / 2 ^ 53 = 1 + m * (-1 / 2 ^ 53) := by ring
    _ ≤ _ := this

theorem Spec.Near.symm {m : ℕ} {x y : ℚ} (h : Near m x y) : Near m y x := ⟨h.2, h.1⟩

theorem near_refl (m : ℕ) {x : ℚ} (h : 0 ≤ x) : Near m x x :=
  ⟨mul_le_of_le_one_right h (theta_pow_le m), mul_le_of_le_one_right h (theta_pow_le m)⟩

theorem Spec.Near.nonneg {m : ℕ} {x y : ℚ} (h : Near m x y) (hy : 0 ≤ y) : 0 ≤ x :=
  le_trans (mul_nonneg hy (theta_pow_pos m).le) h.1

theorem Spec.Near.pos {m : ℕ} {x y : ℚ} (h : Near m x y) (hy : 0 < y) : 0 < x :=
  lt_of_lt_of_le (mul_pos hy (theta_pow_pos m)) h.1

theorem Spec.Near.mono {m n : ℕ} {x y : ℚ} (h : Near m x y) (hmn : m ≤ n) (hy : 0 ≤ y) : Near n x y :=
  ⟨(mul_le_mul_of_nonneg_left (theta_pow_anti hmn) hy).trans h.1,
    (mul_le_mul_of_nonneg_left (theta_pow_anti hmn) (h.nonneg hy)).trans h.2⟩

theorem Spec.Near.trans {m n : ℕ} {x y z : ℚ} (h : Near m x y) (h' : Near n y z) : Near (m + n) x z := by
  constructor
  · rw [pow_add, mul_comm (θ ^ m), ← mul_assoc]
    exact (mul_le_mul_of_nonneg_right h'.1 (theta_pow_pos m).le).trans h.1
  · rw [pow_add, ← mul_assoc]
    exact (mul_le_mul_of_nonneg_right h.2 (theta_pow_pos n).le).trans h'.2

theorem Spec.Near.add {m : ℕ} {x y x' y' : ℚ} (h : Near m x y) (h' : Near m x' y') : Near m (x + x') (y + y') :=
  ⟨by rw [add_mul]; exact add_le_add h.1 h'.1, by rw [add_mul]; exact add_le_add h.2 h'.2⟩

theorem Spec.Near.mul {m n : ℕ} {x y x' y' : ℚ} (h : Near m x y) (h' : Near n x' y') (hy : 0 ≤ y) (hy' : 0 ≤ y') :
    Near (m + n) (x * x') (y * y') := by
  have hx := h.nonneg hy
  have hx' := h'.nonneg hy'
  constructor
  · rw [pow_add, mul_mul_mul_comm]
    exact mul_le_mul h.1 h'.1 (mul_nonneg hy' (theta_pow_pos n).le) hx
  · rw [pow_add, mul_mul_mul_comm]
    exact mul_le_mul h.2 h'.2 (mul_nonneg hx' (theta_pow_pos n).le) hy

theorem Spec.Near.div {m n : ℕ} {x y x' y' : ℚ} (h : Near m x y) (h' : Near n x' y') (hy : 0 ≤ y) (hy' : 0 < y') :
    Near (m + n) (x / x') (y / y') := by
  have hx := h.nonneg hy
  have hx' := h'.pos hy'
  have inv : Near n (x'⁻¹) (y'⁻¹) := by
    constructor
    · rw [inv_mul_le_iff₀ hy', ← div_eq_mul_inv, le_div_iff₀ hx', mul_comm]; exact h'.2
    · rw [inv_mul_le_iff₀ hx', ← div_eq_mul_inv, le_div_iff₀ hy', mul_comm]; exact h'.1
  rw [div_eq_mul_inv, div_eq_mul_inv]
  exact h.mul inv hy (inv_nonneg.2 hy'.le)

theorem near_sum {ι : Type} (m : ℕ) (l : List ι) (f g : ι → ℚ) (h : ∀ i ∈ l, Near m (f i) (g i)) :
    Near m (l.map f).sum (l.map g).sum := by
  induction l with
  | nil => exact near_refl m le_rfl
  | cons a l ih =>
    simp only [List.map_cons, List.sum_cons]
    exact (h a (by simp)).add (ih (fun i hi => h i (by simp [hi])))

/-- Absolute consequences of a relative error. -/
theorem Spec.Near.bounds {m : ℕ} {x y : ℚ} (h : Near m x y) (hy : 0 ≤ y) (hm : 2 * m ≤ 2 ^ 53) :
    y - m / 2 ^ 53 * y ≤ x ∧ x ≤ y + 2 * m / 2 ^ 53 * y := by
  have hx := h.nonneg hy
  have b := theta_pow_ge m
  have hm' : (2 * m : ℚ) ≤ 2 ^ 53 := by exact_mod_cast hm
  obtain ⟨t, ht⟩ : ∃ t : ℚ, t = m / 2 ^ 53 := ⟨_, rfl⟩
  have ht0 : 0 ≤ t := by rw [ht]; positivity
  have ht1 : 2 * t ≤ 1 := by
    rw [ht, ← mul_div_assoc, div_le_one (by norm_num)]; exact hm'
  have e2 : (2 * m / 2 ^ 53 : ℚ) = 2 * t := by rw [ht]; ring
  rw [e2, ← ht]
  rw [← ht] at b
  constructor
  · have := h.1
    have := mul_le_mul_of_nonneg_left b hy
    linarith
  · have h2 := h.2
    have h3 := mul_le_mul_of_nonneg_left b hx
    have h4 : x * (1 - t) ≤ (y + 2 * t * y) * (1 - t) := by
      refine (h3.trans h2).trans ?_
      have h5 : 0 ≤ y * (t * (1 - 2 * t)) := mul_nonneg hy (mul_nonneg ht0 (by linarith))
      linarith
    exact le_of_mul_le_mul_right h4 (by linarith)

theorem rnd_nonneg {q : ℚ} (h : 0 ≤ q) : 0 ≤ rnd q := by
  simpa using int_le_rnd (z := 0) (by simp) (by simpa using h)

theorem near_rnd {q : ℚ} (h : 0 ≤ q) : Near 1 (rnd q) q := by
  have := rnd_error q
  rw [abs_of_nonneg h, abs_le] at this
  unfold Near
  rw [pow_one]
  constructor
  · linarith [this.1]
  · have h2 : rnd q ≤ q + q / 2 ^ 53 := by linarith [this.2]
    have h3 := mul_le_mul_of_nonneg_right h2 theta_pos.le
    refine h3.trans ?_
    have : (q + q / 2 ^ 53) * θ = q - q * (1 / 2 ^ 53) ^ 2 := by ring
    rw [this]
    have := mul_nonneg h (sq_nonneg (1 / 2 ^ 53 : ℚ))
    linarith

namespace PyNum

theorem near_toFloat {x : PyNum} (h : 0 ≤ x.val) : Near 1 x.toFloat x.val := by
  rw [toFloat_eq]; exact near_rnd h

theorem toFloat_nonneg {x : PyNum} (h : 0 ≤ x.val) : 0 ≤ x.toFloat := by
  rw [toFloat_eq]; exact rnd_nonneg h

theorem near_add {x y : PyNum} (hx : 0 ≤ x.val) (hy : 0 ≤ y.val) :
    Near 2 (arith (· + ·) (· + ·) x y).val (x.val + y.val) := by
  rcases add_cases x y with h | ⟨h, -⟩
  · rw [h]; exact near_refl 2 (by linarith)
  · rw [h]
    exact (near_rnd (add_nonneg (toFloat_nonneg hx) (toFloat_nonneg hy))).trans ((near_toFloat hx).add (near_toFloat hy))

theorem near_mul {x y : PyNum} (hx : 0 ≤ x.val) (hy : 0 ≤ y.val) :
    Near 3 (arith (· * ·) (· * ·) x y).val (x.val * y.val) := by
  rcases mul_cases x y with h | ⟨h, -⟩
  · rw [h]; exact near_refl 3 (mul_nonneg hx hy)
  · rw [h]
    exact (near_rnd (mul_nonneg (toFloat_nonneg hx) (toFloat_nonneg hy))).trans ((near_toFloat hx).mul (near_toFloat hy) hx hy)

theorem near_div {x y : PyNum} (hx : 0 ≤ x.val) (hy : 0 < y.val) : Near 3 (div x y).val (x.val / y.val) := by
  have hq := div_nonneg hx hy.le
  rcases div_cases x y with h | h | h
  · rw [h]; exact near_refl 3 hq
  · rw [h]; exact (near_rnd hq).mono (by norm_num) hq
  · rw [h]
    exact (near_rnd (div_nonneg (toFloat_nonneg hx) (toFloat_nonneg hy.le))).trans ((near_toFloat hx).div (near_toFloat hy.le) hx hy)

theorem tol_bounds : 999 / 10 ^ 15 ≤ tol ∧ tol ≤ 1001 / 10 ^ 15 := by
  have et : |tol - 1 / 10 ^ 12| ≤ |(1 / 10 ^ 12 : ℚ)| / 2 ^ 53 := rnd_error _
  rw [abs_le] at et
  have : |(1 / 10 ^ 12 : ℚ)| / 2 ^ 53 ≤ 1 / 10 ^ 15 := by norm_num
  constructor
  · have := et.1; norm_num at this ⊢; linarith
  · have := et.2; norm_num at this ⊢; linarith

theorem rnd_close (q : ℚ) : |q| * (1 - 1 / 10 ^ 15) ≤ |rnd q| ∧ |rnd q| ≤ |q| * (1 + 1 / 10 ^ 15) := by
  have h := rnd_error q
  have h1 := abs_sub_abs_le_abs_sub (rnd q) q
  have h2 := abs_sub_abs_le_abs_sub q (rnd q)
  rw [abs_sub_comm] at h2
  have h3 : |q| / 2 ^ 53 ≤ |q| * (1 / 10 ^ 15) := by
    rw [div_eq_mul_one_div]
    exact mul_le_mul_of_nonneg_left (by norm_num) (abs_nonneg q)
  constructor <;> linarith

theorem isclose_iff (x y : PyNum) : isclose x y = true ↔ x.toFloat = y.toFloat ∨
    |rnd (y.toFloat - x.toFloat)| ≤ |rnd (tol * y.toFloat)| ∨ |rnd (y.toFloat - x.toFloat)| ≤ |rnd (tol * x.toFloat)| ∨
    |rnd (y.toFloat - x.toFloat)| ≤ tol := by
  unfold isclose
  simp only [Bool.or_eq_true, decide_eq_true_eq, or_assoc]

/-- The rounded difference of the rounded numbers. -/
theorem diff_bounds {a b : ℚ} (ha : 0 ≤ a) (hb : 0 ≤ b) {M : ℚ} (haM : a ≤ M) (hbM : b ≤ M) :
    |rnd (rnd b - rnd a)| ≤ (|a - b| + 3 / 10 ^ 15 * M) * (1 + 1 / 10 ^ 15) ∧
    (|a - b| - 3 / 10 ^ 15 * M) * (1 - 1 / 10 ^ 15) ≤ |rnd (rnd b - rnd a)| := by
  have ea := rnd_error a
  have eb := rnd_error b
  rw [abs_of_nonneg ha] at ea
  rw [abs_of_nonneg hb] at eb
  have h1 : a / 2 ^ 53 ≤ 1 / 10 ^ 15 * M := by
    rw [div_eq_mul_one_div, mul_comm]
    exact mul_le_mul (by norm_num) haM ha (by norm_num)
  have h2 : b / 2 ^ 53 ≤ 1 / 10 ^ 15 * M := by
    rw [div_eq_mul_one_div, mul_comm]
    exact mul_le_mul (by norm_num) hbM hb (by norm_num)
  have hd : |(rnd b - rnd a) - (b - a)| ≤ 2 / 10 ^ 15 * M := by
    rw [abs_le] at ea eb ⊢
    constructor <;> linarith [ea.1, ea.2, eb.1, eb.2]
  have h3 := abs_sub_abs_le_abs_sub (rnd b - rnd a) (b - a)
  have h4 := abs_sub_abs_le_abs_sub (b - a) (rnd b - rnd a)
  rw [abs_sub_comm (b - a)] at h4
  have hM : 0 ≤ M := ha.trans haM
  have h5 : |b - a| = |a - b| := abs_sub_comm b a
  rw [h5] at h3 h4
  obtain ⟨r1, r2⟩ := rnd_close (rnd b - rnd a)
  constructor
  · refine r2.trans (mul_le_mul_of_nonneg_right ?_ (by norm_num))
    linarith
  · refine le_trans (mul_le_mul_of_nonneg_right ?_ (by norm_num)) r1
    linarith

theorem isclose_true {x y : PyNum} (hx : 0 ≤ x.val) (hy : 0 ≤ y.val)
    (h : |x.val - y.val| ≤ 9 / 10 ^ 13 * max 1 (max x.val y.val)) : isclose x y = true := by
  rw [isclose_iff]
  right
  rw [toFloat_eq, toFloat_eq]
  set a := x.val
  set b := y.val
  set M := max 1 (max a b) with hM
  obtain ⟨d1, -⟩ := diff_bounds hx hy (M := M) ((le_max_left _ _).trans (le_max_right _ _)) ((le_max_right _ _).trans (le_max_right _ _))
  have hM1 : 1 ≤ M := le_max_left _ _
  have hbound : |rnd (rnd b - rnd a)| ≤ 91 / 10 ^ 14 * M := by
    refine d1.trans ?_
    have : (|a - b| + 3 / 10 ^ 15 * M) * (1 + 1 / 10 ^ 15) ≤ (9 / 10 ^ 13 * M + 3 / 10 ^ 15 * M) * (1 + 1 / 10 ^ 15) := by
      refine mul_le_mul_of_nonneg_right ?_ (by norm_num)
      linarith
    refine this.trans ?_
    norm_num
    linarith
  obtain ⟨t1, -⟩ := tol_bounds
  have big : ∀ q : ℚ, 0 ≤ q → 91 / 10 ^ 14 * q ≤ |rnd (tol * rnd q)| := by
    intro q hq
    obtain ⟨r1, -⟩ := rnd_close (tol * rnd q)
    obtain ⟨r2, -⟩ := rnd_close q
    rw [abs_of_nonneg hq, abs_of_nonneg (rnd_nonneg hq)] at r2
    rw [abs_of_nonneg (mul_nonneg (by linarith) (rnd_nonneg hq))] at r1
    refine le_trans ?_ r1
    have h1 : 999 / 10 ^ 15 * (q * (1 - 1 / 10 ^ 15)) ≤ tol * rnd q :=
      mul_le_mul t1 r2 (mul_nonneg hq (by norm_num)) (by linarith)
    have h2 := mul_le_mul_of_nonneg_right h1 (show (0 : ℚ) ≤ 1 - 1 / 10 ^ 15 by norm_num)
    refine le_trans ?_ h2
    norm_num
    linarith
  rcases max_choice 1 (max a b) with h1 | h1
  · right; right
    rw [hM, h1] at hbound
    norm_num at hbound t1
    linarith
  · rcases max_choice a b with h2 | h2
    · right; left
      rw [hM, h1, h2] at hbound
      exact hbound.trans (big a hx)
    · left
      rw [hM, h1, h2] at hbound
      exact hbound.trans (big b hy)

theorem isclose_false {x y : PyNum} (hx : 0 ≤ x.val) (hy : 0 ≤ y.val)
    (h : 11 / 10 ^ 13 * max 1 (max x.val y.val) < |x.val - y.val|) : isclose x y = false := by
  rw [Bool.eq_false_iff]
  intro hc
  rw [isclose_iff, toFloat_eq, toFloat_eq] at hc
  set a := x.val
  set b := y.val
  set M := max 1 (max a b) with hM
  have haM : a ≤ M := (le_max_left _ _).trans (le_max_right _ _)
  have hbM : b ≤ M := (le_max_right _ _).trans (le_max_right _ _)
  obtain ⟨-, d1⟩ := diff_bounds hx hy haM hbM
  have hM1 : 1 ≤ M := le_max_left _ _
  have hbound : 109 / 10 ^ 14 * M ≤ |rnd (rnd b - rnd a)| := by
    refine le_trans ?_ d1
    have : (11 / 10 ^ 13 * M - 3 / 10 ^ 15 * M) * (1 - 1 / 10 ^ 15) ≤ (|a - b| - 3 / 10 ^ 15 * M) * (1 - 1 / 10 ^ 15) := by
      refine mul_le_mul_of_nonneg_right ?_ (by norm_num)
      linarith
    refine le_trans ?_ this
    norm_num
    linarith
  obtain ⟨t1, t2⟩ := tol_bounds
  have small : ∀ q : ℚ, 0 ≤ q → q ≤ M → |rnd (tol * rnd q)| ≤ 105 / 10 ^ 14 * M := by
    intro q hq hqM
    obtain ⟨-, r1⟩ := rnd_close (tol * rnd q)
    obtain ⟨-, r2⟩ := rnd_close q
    rw [abs_of_nonneg hq, abs_of_nonneg (rnd_nonneg hq)] at r2
    rw [abs_of_nonneg (mul_nonneg (by linarith) (rnd_nonneg hq))] at r1
    refine r1.trans ?_
    have h1 : tol * rnd q ≤ 1001 / 10 ^ 15 * (q * (1 + 1 / 10 ^ 15)) :=
      mul_le_mul t2 r2 (rnd_nonneg hq) (by norm_num)
    have h2 := mul_le_mul_of_nonneg_right h1 (show (0 : ℚ) ≤ 1 + 1 / 10 ^ 15 by norm_num)
    refine h2.trans ?_
    norm_num
    linarith
  rcases hc with hc | hc | hc | hc
  · rw [hc, sub_self] at hbound
    have e : rnd 0 = 0 := by simp [rnd]
    rw [e, abs_zero] at hbound
    linarith
  · have := small b hy hbM
    linarith
  · have := small a hx haM
    linarith
  · norm_num at t2 hbound
    linarith

/-- The running total is accurate. -/
theorem runningSum_accurate : SumAccurate PyNum.val runningSum := by
  intro m l h
  have main : ∀ (l : List (PyNum × ℚ)) (n : ℕ) (acc : PyNum) (q : ℚ), m ≤ n → 0 ≤ q → Near n acc.val q →
      (∀ e ∈ l, 0 ≤ e.2 ∧ Near m e.1.val e.2) →
      Near (n + 2 * l.length) ((l.map Prod.fst).foldl (arith (· + ·) (· + ·)) acc).val (q + (l.map Prod.snd).sum) := by
    intro l
    induction l with
    | nil => intro n acc q _ _ h1 _; simpa using h1
    | cons e l ih =>
      intro n acc q hn hq hacc hl
      obtain ⟨he0, he⟩ := hl e (by simp)
      have he' := he.mono hn he0
      have h1 := (near_add (hacc.nonneg hq) (he.nonneg he0)).trans (hacc.add he')
      have := ih (2 + n) (arith (· + ·) (· + ·) acc e.1) (q + e.2) (by omega) (by linarith) h1 (fun x hx => hl x (by simp [hx]))
      simp only [List.map_cons, List.sum_cons, List.foldl_cons, List.length_cons]
      rw [← add_assoc, show n + 2 * (l.length + 1) = 2 + n + 2 * l.length by ring]
      exact this
  have := main l m (.int 0) 0 le_rfl le_rfl (by simpa [PyNum.val] using near_refl m le_rfl) h
  rw [zero_add] at this
  exact this

end PyNum

open PyNum in
/-- Python's arithmetic is accurate. -/
theorem pyArith_accurate (weight : ℚ → PyNum) (sum : List PyNum → PyNum) (hs : SumAccurate PyNum.val sum) :
    Accurate (pyArith weight sum) where
  add _ _ hx hy := near_add hx hy
  mul _ _ hx hy := near_mul hx hy
  div _ _ hx hy := near_div hx hy
  isclose_true _ _ hx hy h := PyNum.isclose_true hx hy h
  isclose_false _ _ hx hy h := PyNum.isclose_false hx hy h
  sum := hs

end Abc
