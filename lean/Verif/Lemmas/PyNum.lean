import Verif.Lemmas.Rnd

/-!
# Python's arithmetic satisfies the assumptions of `Spec.Sound`
-/

namespace Abc
open Spec

namespace PyNum

theorem toFloat_eq (x : PyNum) : x.toFloat = rnd x.val := by
  cases x with
  | int z => rfl
  | frac q => rfl
  | float q => exact (rnd_rnd q).symm

theorem toFloat_le {x : PyNum} {z : ℤ} (hz : |z| ≤ 2 ^ 53) (h : x.val ≤ z) : x.toFloat ≤ z := by
  rw [toFloat_eq]; exact rnd_int_le hz h

theorem le_toFloat {x : PyNum} {z : ℤ} (hz : |z| ≤ 2 ^ 53) (h : (z : ℚ) ≤ x.val) : (z : ℚ) ≤ x.toFloat := by
  rw [toFloat_eq]; exact int_le_rnd hz h

theorem toFloat_int {x : PyNum} {z : ℤ} (hz : |z| ≤ 2 ^ 53) (h : x.val = z) : x.toFloat = z :=
  le_antisymm (toFloat_le hz h.le) (le_toFloat hz h.ge)

/-- The result is exact or the correctly rounded result for the operands converted to floats; in the latter case one of the
operands is a float. -/
theorem arith_cases (op : ℚ → ℚ → ℚ) (opInt : ℤ → ℤ → ℤ) (h : ∀ a b : ℤ, ((opInt a b : ℤ) : ℚ) = op a b) (x y : PyNum) :
    (arith op opInt x y).val = op x.val y.val ∨
    ((arith op opInt x y).val = rnd (op x.toFloat y.toFloat) ∧ (Rep x.val ∨ Rep y.val)) := by
  cases x with
  | int a =>
    cases y with
    | int b => left; exact h a b
    | frac b => left; rfl
    | float b => right; exact ⟨rfl, Or.inr (rep_rnd b)⟩
  | frac a =>
    cases y with
    | int b => left; rfl
    | frac b => left; rfl
    | float b => right; exact ⟨rfl, Or.inr (rep_rnd b)⟩
  | float a => cases y <;> (right; exact ⟨rfl, Or.inl (rep_rnd a)⟩)

theorem div_cases (x y : PyNum) :
    (div x y).val = x.val / y.val ∨ (div x y).val = rnd (x.val / y.val) ∨ (div x y).val = rnd (x.toFloat / y.toFloat) := by
  cases x with
  | int a =>
    cases y with
    | int b => right; left; rfl
    | frac b => left; rfl
    | float b => right; right; rfl
  | frac a =>
    cases y with
    | int b => left; rfl
    | frac b => left; rfl
    | float b => right; right; rfl
  | float a => cases y <;> (right; right; rfl)

theorem add_cases (x y : PyNum) : (arith (· + ·) (· + ·) x y).val = x.val + y.val ∨
    ((arith (· + ·) (· + ·) x y).val = rnd (x.toFloat + y.toFloat) ∧ (Rep x.val ∨ Rep y.val)) :=
  arith_cases _ _ (fun a b => by push_cast; rfl) x y

theorem sub_cases (x y : PyNum) : (arith (· - ·) (· - ·) x y).val = x.val - y.val ∨
    ((arith (· - ·) (· - ·) x y).val = rnd (x.toFloat - y.toFloat) ∧ (Rep x.val ∨ Rep y.val)) :=
  arith_cases _ _ (fun a b => by push_cast; rfl) x y

theorem mul_cases (x y : PyNum) : (arith (· * ·) (· * ·) x y).val = x.val * y.val ∨
    ((arith (· * ·) (· * ·) x y).val = rnd (x.toFloat * y.toFloat) ∧ (Rep x.val ∨ Rep y.val)) :=
  arith_cases _ _ (fun a b => by push_cast; rfl) x y

theorem add_le (x y : PyNum) (a b : ℤ) (ha : 0 ≤ a) (hb : 0 ≤ b) (hab : a + b ≤ 2 ^ 53) (hx : x.val ≤ a) (hy : y.val ≤ b) :
    (arith (· + ·) (· + ·) x y).val ≤ a + b := by
  rcases add_cases x y with h | ⟨h, -⟩
  · rw [h]; linarith
  · rw [h]
    have h1 := toFloat_le (x := x) (z := a) (by rw [abs_of_nonneg ha]; omega) hx
    have h2 := toFloat_le (x := y) (z := b) (by rw [abs_of_nonneg hb]; omega) hy
    have := rnd_int_le (q := x.toFloat + y.toFloat) (z := a + b) (by rw [abs_of_nonneg (by omega)]; omega) (by push_cast; linarith)
    simpa using this

theorem add_ge (x y : PyNum) (a b : ℤ) (ha : 0 ≤ a) (hb : 0 ≤ b) (hab : a + b ≤ 2 ^ 53) (hx : a ≤ x.val) (hy : b ≤ y.val) :
    (a + b : ℚ) ≤ (arith (· + ·) (· + ·) x y).val := by
  rcases add_cases x y with h | ⟨h, -⟩
  · rw [h]; linarith
  · rw [h]
    have h1 := le_toFloat (x := x) (z := a) (by rw [abs_of_nonneg ha]; omega) hx
    have h2 := le_toFloat (x := y) (z := b) (by rw [abs_of_nonneg hb]; omega) hy
    have := int_le_rnd (q := x.toFloat + y.toFloat) (z := a + b) (by rw [abs_of_nonneg (by omega)]; omega) (by push_cast; linarith)
    simpa using this

theorem add_pos {x y : PyNum} (hx : 0 ≤ x.val) (hy : 0 < y.val) : 0 < (arith (· + ·) (· + ·) x y).val := by
  rcases add_cases x y with h | ⟨h, -⟩
  · rw [h]; linarith
  · rw [h]
    apply rnd_pos
    rw [toFloat_eq, toFloat_eq]
    have h1 := int_le_rnd (q := x.val) (z := 0) (by simp) (by simpa using hx)
    have h2 := rnd_pos hy
    push_cast at h1
    linarith

theorem isclose_far (x y : PyNum) (h1 : x.val + 1 ≤ y.val) (h0 : 0 ≤ y.val) (h2 : y.val ≤ 10 ^ 11) : isclose y x = false := by
  unfold isclose
  simp only [toFloat_eq, Bool.or_eq_false_iff, decide_eq_false_iff_not, not_le]
  have ey := rnd_error y.val
  have ex := rnd_error x.val
  have et : |tol - 1 / 10 ^ 12| ≤ |(1 / 10 ^ 12 : ℚ)| / 2 ^ 53 := rnd_error _
  set X := x.val
  set Y := y.val
  set a := rnd Y
  set b := rnd X
  have ht0 : 0 ≤ tol := by
    have := int_le_rnd (q := 1 / 10 ^ 12) (z := 0) (by simp) (by norm_num)
    rw [Int.cast_zero] at this
    exact this
  have ht : tol ≤ 11 / 10 ^ 13 := by
    rw [abs_le] at et
    have : |(1 / 10 ^ 12 : ℚ)| / 2 ^ 53 ≤ 1 / 10 ^ 13 := by norm_num
    linarith [et.2]
  obtain ⟨D, hD⟩ : ∃ D, D = Y - X := ⟨_, rfl⟩
  have hX : |X| ≤ D + 10 ^ 11 := by
    rw [abs_le]; constructor <;> linarith
  have hYa : |Y| = Y := abs_of_nonneg h0
  rw [hYa] at ey
  have eX : |X| / 2 ^ 53 ≤ (D + 10 ^ 11) / 2 ^ 53 := by gcongr
  have eY : Y / 2 ^ 53 ≤ 10 ^ 11 / 2 ^ 53 := by gcongr
  have hab : 9 / 10 * D ≤ a - b := by
    rw [abs_le] at ey ex
    have h3 := ey.1
    have h4 := ex.2
    norm_num at h3 h4 eX eY ⊢
    linarith
  have hab0 : 0 < a - b := by linarith
  have ed := rnd_error (b - a)
  have hba : |b - a| = a - b := by rw [abs_of_neg (by linarith)]; ring
  have hd : 8 / 10 * D ≤ |rnd (b - a)| := by
    rw [hba] at ed
    have h5 : a - b - (a - b) / 2 ^ 53 ≤ |rnd (b - a)| := by
      rw [abs_le] at ed
      have := neg_abs_le (rnd (b - a))
      linarith [ed.2]
    have h6 : (a - b) / 2 ^ 53 ≤ (a - b) / 100 := by
      apply div_le_div_of_nonneg_left hab0.le (by norm_num) (by norm_num)
    linarith
  have htol : ∀ z : ℚ, |z| ≤ 11 / 10 * (D + 10 ^ 11) → |rnd (tol * z)| < |rnd (b - a)| := by
    intro z hz
    have e1 := rnd_error (tol * z)
    have h7 : |rnd (tol * z)| ≤ |tol * z| + |tol * z| / 2 ^ 53 := by
      have := abs_sub_abs_le_abs_sub (rnd (tol * z)) (tol * z)
      linarith
    have h8 : |tol * z| ≤ 11 / 10 ^ 13 * (11 / 10 * (D + 10 ^ 11)) := by
      rw [abs_mul, abs_of_nonneg ht0]
      exact mul_le_mul ht hz (abs_nonneg _) (by norm_num)
    have h9 : |tol * z| / 2 ^ 53 ≤ |tol * z| / 100 := by
      apply div_le_div_of_nonneg_left (abs_nonneg _) (by norm_num) (by norm_num)
    generalize |tol * z| = T at h7 h8 h9
    have hD1 : 1 ≤ D := by linarith
    norm_num at h8
    linarith
  have hDp : 1 ≤ D := by linarith
  refine ⟨⟨⟨by linarith, ?_⟩, ?_⟩, ?_⟩
  · apply htol
    have := abs_sub_abs_le_abs_sub b X
    norm_num at eX ex ⊢
    linarith
  · apply htol
    have h9 := abs_sub_abs_le_abs_sub a Y
    rw [hYa] at h9
    norm_num at eY ey ⊢
    linarith
  · norm_num at ht
    linarith

end PyNum

open PyNum in
/-- Python's arithmetic respects integer bounds. -/
theorem pyArith_sound (weight : ℚ → PyNum) (hw : ∀ q, (weight q).val = q) (sum : List PyNum → PyNum)
    (hs : SumSound PyNum.val sum) : Sound (pyArith weight sum) where
  val_int _ := rfl
  val_weight := hw
  val_neg x := by
    cases x with
    | int z => simp [pyArith, PyNum.neg, PyNum.val]
    | frac q => rfl
    | float q => exact rnd_of_rep (rep_rnd q).neg
  isclose_refl x := by simp [pyArith, PyNum.isclose]
  isclose_far := PyNum.isclose_far
  add_le := PyNum.add_le
  add_ge := PyNum.add_ge
  sub_le x y a b hb hba ha hx hy := by
    rcases sub_cases x y with h | ⟨h, -⟩
    · exact le_trans h.le (sub_le_sub hx hy)
    · refine le_trans h.le ?_
      have h1 := toFloat_le (x := x) (z := a) (by rw [abs_of_nonneg (by omega)]; omega) hx
      have h2 := le_toFloat (x := y) (z := b) (by rw [abs_of_nonneg hb]; omega) hy
      have := rnd_int_le (q := x.toFloat - y.toFloat) (z := a - b) (by rw [abs_of_nonneg (by omega)]; omega) (by push_cast; linarith)
      simpa using this
  sub_ge x y a b hb hba ha hx hy := by
    rcases sub_cases x y with h | ⟨h, -⟩
    · exact le_trans (sub_le_sub hx hy) h.ge
    · refine le_trans ?_ h.ge
      have h1 := le_toFloat (x := x) (z := a) (by rw [abs_of_nonneg (by omega)]; omega) hx
      have h2 := toFloat_le (x := y) (z := b) (by rw [abs_of_nonneg hb]; omega) hy
      have := int_le_rnd (q := x.toFloat - y.toFloat) (z := a - b) (by rw [abs_of_nonneg (by omega)]; omega) (by push_cast; linarith)
      simpa using this
  sub_nonneg x y hxy := by
    have hxy' : y.val ≤ x.val := hxy
    rcases sub_cases x y with h | ⟨h, hr⟩
    · exact le_trans (by linarith) h.ge
    · refine le_trans ?_ h.ge
      have h1 : y.toFloat ≤ x.toFloat := by
        rw [toFloat_eq, toFloat_eq]
        rcases hr with hr | hr
        · rw [rnd_of_rep hr]; exact rnd_le hr hxy'
        · rw [rnd_of_rep hr]; exact le_rnd hr hxy'
      have := int_le_rnd (q := x.toFloat - y.toFloat) (z := 0) (by simp) (by push_cast; linarith)
      simpa using this
  mul_le_left x y a b ha ha' hb hb' hab hx hy := by
    have hx' : x.val = a := hx
    have hy' : y.val ≤ b := hy
    have ha0 : (0 : ℚ) ≤ a := by exact_mod_cast ha
    rcases mul_cases x y with h | ⟨h, -⟩
    · refine le_trans h.le ?_
      rw [hx']; gcongr
    · refine le_trans h.le ?_
      rw [toFloat_int (by rw [abs_of_nonneg ha]; omega) hx']
      have h2 := toFloat_le (x := y) (z := b) (by rw [abs_of_nonneg hb]; omega) hy'
      have := rnd_int_le (q := a * y.toFloat) (z := a * b) (by rw [abs_of_nonneg (mul_nonneg ha hb)]; omega) (by push_cast; gcongr)
      simpa using this
  mul_le_right x y a b ha ha' hb hb' hab hx hy := by
    have hx' : x.val ≤ a := hx
    have hy' : y.val = b := hy
    have hb0 : (0 : ℚ) ≤ b := by exact_mod_cast hb
    rcases mul_cases x y with h | ⟨h, -⟩
    · refine le_trans h.le ?_
      rw [hy']; gcongr
    · refine le_trans h.le ?_
      rw [toFloat_int (x := y) (by rw [abs_of_nonneg hb]; omega) hy']
      have h2 := toFloat_le (x := x) (z := a) (by rw [abs_of_nonneg ha]; omega) hx'
      have := rnd_int_le (q := x.toFloat * b) (z := a * b) (by rw [abs_of_nonneg (mul_nonneg ha hb)]; omega) (by push_cast; gcongr)
      simpa using this
  mul_ge x y a b ha ha' hb hb' hab hx hy := by
    have hx' : x.val = a := hx
    have hy' : (b : ℚ) ≤ y.val := hy
    have ha0 : (0 : ℚ) ≤ a := by exact_mod_cast ha
    rcases mul_cases x y with h | ⟨h, -⟩
    · refine le_trans ?_ h.ge
      rw [hx']; gcongr
    · refine le_trans ?_ h.ge
      rw [toFloat_int (by rw [abs_of_nonneg ha]; omega) hx']
      have h2 := le_toFloat (x := y) (z := b) (by rw [abs_of_nonneg hb]; omega) hy'
      have := int_le_rnd (q := a * y.toFloat) (z := a * b) (by rw [abs_of_nonneg (mul_nonneg ha hb)]; omega) (by push_cast; gcongr)
      simpa using this
  div_le x y a b ha hb hb' hab hy hx := by
    have hy' : y.val = b := hy
    have hx' : x.val ≤ ((a * b : ℤ) : ℚ) := by push_cast; exact hx
    have hb0 : (0 : ℚ) < b := by exact_mod_cast hb
    have ha53 : |a| ≤ 2 ^ 53 := by
      rw [abs_of_nonneg ha]
      nlinarith
    have h1 : x.val / y.val ≤ a := by rw [hy', div_le_iff₀ hb0]; simpa using hx'
    have h2 : x.toFloat / y.toFloat ≤ a := by
      rw [toFloat_int (x := y) (by rw [abs_of_pos hb]; omega) hy', div_le_iff₀ hb0]
      have := toFloat_le (x := x) (z := a * b) (by rw [abs_of_nonneg (by positivity)]; omega) hx'
      simpa using this
    rcases div_cases x y with h | h | h
    · exact le_trans h.le h1
    · exact le_trans h.le (rnd_int_le ha53 h1)
    · exact le_trans h.le (rnd_int_le ha53 h2)
  div_nonneg x y hx hy := by
    have hx' : (0 : ℚ) ≤ x.val := hx
    have hy' : (0 : ℚ) < y.val := hy
    have h1 : 0 ≤ x.val / y.val := by positivity
    have h2 : 0 ≤ x.toFloat / y.toFloat := by
      have := le_toFloat (x := x) (z := 0) (by simp) (by simpa using hx')
      have h4 := rnd_pos hy'
      rw [← toFloat_eq] at h4
      push_cast at this
      positivity
    rcases div_cases x y with h | h | h
    · exact le_trans h1 h.ge
    · refine le_trans ?_ h.ge
      simpa using int_le_rnd (z := 0) (by simp) (by simpa using h1)
    · refine le_trans ?_ h.ge
      simpa using int_le_rnd (z := 0) (by simp) (by simpa using h2)
  sum := hs

/-- The running total respects integer bounds. -/
theorem runningSum_sound : SumSound PyNum.val PyNum.runningSum where
  le l h hl := by
    have main : ∀ (l : List (PyNum × ℤ)) (acc : PyNum) (a : ℤ), 0 ≤ a → acc.val ≤ a → (∀ e ∈ l, 0 ≤ e.2 ∧ e.1.val ≤ e.2) →
        a + (l.map Prod.snd).sum ≤ 2 ^ 53 →
        ((l.map Prod.fst).foldl (PyNum.arith (· + ·) (· + ·)) acc).val ≤ a + ((l.map Prod.snd).sum : ℤ) := by
      intro l
      induction l with
      | nil => intro acc a _ h1 _ _; simpa using h1
      | cons e l ih =>
        intro acc a ha hacc hl hsum
        simp only [List.map_cons, List.sum_cons, List.foldl_cons] at hsum ⊢
        have he := hl e (by simp)
        have hnn : 0 ≤ (l.map Prod.snd).sum := by
          refine List.sum_nonneg ?_
          intro x hx
          obtain ⟨e, he, rfl⟩ := List.mem_map.1 hx
          exact (hl e (by simp [he])).1
        have := ih (PyNum.arith (· + ·) (· + ·) acc e.1) (a + e.2) (by omega)
          (by have := PyNum.add_le acc e.1 a e.2 ha he.1 (by omega) hacc he.2; push_cast; exact this)
          (fun x hx => hl x (by simp [hx])) (by omega)
        push_cast at this ⊢
        linarith
    have := main l (.int 0) 0 le_rfl (by simp [PyNum.val]) h (by simpa using hl)
    simpa [PyNum.runningSum] using this
  ge l h hl := by
    have main : ∀ (l : List (PyNum × ℤ)) (acc : PyNum) (a : ℤ), 0 ≤ a → a ≤ acc.val → (∀ e ∈ l, 0 ≤ e.2 ∧ e.2 ≤ e.1.val) →
        a + (l.map Prod.snd).sum ≤ 2 ^ 53 →
        (a + ((l.map Prod.snd).sum : ℤ) : ℚ) ≤ ((l.map Prod.fst).foldl (PyNum.arith (· + ·) (· + ·)) acc).val := by
      intro l
      induction l with
      | nil => intro acc a _ h1 _ _; simpa using h1
      | cons e l ih =>
        intro acc a ha hacc hl hsum
        simp only [List.map_cons, List.sum_cons, List.foldl_cons] at hsum ⊢
        have he := hl e (by simp)
        have hnn : 0 ≤ (l.map Prod.snd).sum := by
          refine List.sum_nonneg ?_
          intro x hx
          obtain ⟨e, he, rfl⟩ := List.mem_map.1 hx
          exact (hl e (by simp [he])).1
        have := ih (PyNum.arith (· + ·) (· + ·) acc e.1) (a + e.2) (by omega)
          (by have := PyNum.add_ge acc e.1 a e.2 ha he.1 (by omega) hacc he.2; push_cast; exact this)
          (fun x hx => hl x (by simp [hx])) (by omega)
        push_cast at this ⊢
        linarith
    have := main l (.int 0) 0 le_rfl (by simp [PyNum.val]) h (by simpa using hl)
    simpa [PyNum.runningSum] using this
  pos l hne h := by
    have main : ∀ (l : List PyNum) (acc : PyNum), 0 < acc.val → (∀ x ∈ l, 0 < x.val) →
        0 < (l.foldl (PyNum.arith (· + ·) (· + ·)) acc).val := by
      intro l
      induction l with
      | nil => intro acc h _; exact h
      | cons x l ih =>
        intro acc h1 h2
        exact ih _ (PyNum.add_pos h1.le (h2 x (by simp))) (fun y hy => h2 y (by simp [hy]))
    cases l with
    | nil => exact absurd rfl hne
    | cons x l =>
      exact main l _ (PyNum.add_pos (by simp [PyNum.val]) (h x (by simp))) (fun y hy => h y (by simp [hy]))

/-- Weights stored as ints if they are integers, as Fractions otherwise. -/
def exactWeight (q : ℚ) : PyNum := if q.den = 1 then .int q.num else .frac q

theorem exactWeight_val (q : ℚ) : (exactWeight q).val = q := by
  unfold exactWeight
  split
  · rename_i h; exact (Rat.den_eq_one_iff q).1 h
  · rfl

theorem exactWeight_int (z : ℤ) : exactWeight z = .int z := by simp [exactWeight]

/-- For integer weights stored as ints the running total is exact, and so is `Fraction`. -/
theorem runningSum_ints (l : List ℤ) : PyNum.runningSum (l.map PyNum.int) = .int l.sum := by
  have main : ∀ (l : List ℤ) (z : ℤ), (l.map PyNum.int).foldl (PyNum.arith (· + ·) (· + ·)) (.int z) = .int (z + l.sum) := by
    intro l
    induction l with
    | nil => intro z; simp
    | cons a l ih =>
      intro z
      simp only [List.map_cons, List.foldl_cons, List.sum_cons]
      rw [show PyNum.arith (· + ·) (· + ·) (.int z) (.int a) = .int (z + a) from rfl, ih, add_assoc]
  simpa [PyNum.runningSum] using main l 0

theorem fractionExact_py (weight : ℚ → PyNum) (hw : ∀ z : ℤ, weight z = .int z) (sum : List PyNum → PyNum)
    (hs : ∀ l : List ℤ, sum (l.map PyNum.int) = .int l.sum) : FractionExact (pyArith weight sum) := by
  intro n l hl
  refine ⟨.frac (n / l.sum), ?_, by rfl⟩
  simp only [pyArith]
  rw [show (fun z : ℤ => weight z) = PyNum.int from funext hw, hs, PyNum.fraction, if_neg (by omega)]

end Abc
