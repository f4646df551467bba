import Verif.Spec.Float
import Mathlib.Tactic.Linarith
import Mathlib.Tactic.Positivity
import Mathlib.Tactic.FieldSimp
import Mathlib.Tactic.Ring

/-!
# Rounding to 53 significant bits
-/

namespace Abc
open Spec

theorem pow2_eq (e : ℤ) : pow2 e = (2 : ℚ) ^ e := by
  cases e with
  | ofNat n => simp [pow2]
  | negSucc n => simp [pow2, zpow_negSucc]

theorem pow2_pos (e : ℤ) : 0 < pow2 e := by rw [pow2_eq]; exact zpow_pos (by norm_num) e

theorem pow2_add (e f : ℤ) : pow2 (e + f) = pow2 e * pow2 f := by
  rw [pow2_eq, pow2_eq, pow2_eq, zpow_add₀ (by norm_num)]

theorem pow2_nat (n : ℕ) : pow2 n = ((2 ^ n : ℤ) : ℚ) := by rw [pow2_eq]; simp

theorem pow2_le {e f : ℤ} (h : e ≤ f) : pow2 e ≤ pow2 f := by
  rw [pow2_eq, pow2_eq]
  exact zpow_le_zpow_right₀ (by norm_num) h

theorem expo_spec {q : ℚ} (h : q ≠ 0) : pow2 (expo q) ≤ |q| ∧ |q| < pow2 (expo q + 1) := by
  have hn : q.num.natAbs ≠ 0 := by simpa using h
  have hd : q.den ≠ 0 := q.den_ne_zero
  have n1 : 2 ^ Nat.log2 q.num.natAbs ≤ q.num.natAbs := Nat.log2_self_le hn
  have n2 : q.num.natAbs < 2 ^ (Nat.log2 q.num.natAbs + 1) := Nat.lt_log2_self
  have d1 : 2 ^ Nat.log2 q.den ≤ q.den := Nat.log2_self_le hd
  have d2 : q.den < 2 ^ (Nat.log2 q.den + 1) := Nat.lt_log2_self
  have hq : |q| = (q.num.natAbs : ℚ) / q.den := by
    conv_lhs => rw [← Rat.num_div_den q]
    rw [abs_div, Nat.abs_cast, Nat.cast_natAbs, Int.cast_abs]
  set a := Nat.log2 q.num.natAbs
  set b := Nat.log2 q.den
  have hdp : (0 : ℚ) < q.den := by exact_mod_cast q.den_pos
  have n1' : (2 : ℚ) ^ a ≤ q.num.natAbs := by exact_mod_cast n1
  have n2' : (q.num.natAbs : ℚ) < 2 ^ (a + 1) := by exact_mod_cast n2
  have d1' : (2 : ℚ) ^ b ≤ q.den := by exact_mod_cast d1
  have d2' : (q.den : ℚ) < 2 ^ (b + 1) := by exact_mod_cast d2
  have hup : |q| < pow2 ((a : ℤ) - b + 1) := by
    rw [pow2_eq, hq, div_lt_iff₀ hdp, show (a : ℤ) - b + 1 = ((a + 1 : ℕ) : ℤ) - (b : ℕ) by push_cast; ring,
      zpow_sub₀ (by norm_num), zpow_natCast, zpow_natCast]
    calc (q.num.natAbs : ℚ) < 2 ^ (a + 1) := n2'
      _ = 2 ^ (a + 1) / 2 ^ b * 2 ^ b := by field_simp
      _ ≤ 2 ^ (a + 1) / 2 ^ b * q.den := by gcongr
  have hlo : pow2 ((a : ℤ) - b - 1) ≤ |q| := by
    rw [pow2_eq, hq, le_div_iff₀ hdp, show (a : ℤ) - b - 1 = (a : ℕ) - ((b + 1 : ℕ) : ℤ) by push_cast; ring,
      zpow_sub₀ (by norm_num), zpow_natCast, zpow_natCast]
    calc (2 : ℚ) ^ a / 2 ^ (b + 1) * q.den ≤ 2 ^ a / 2 ^ (b + 1) * 2 ^ (b + 1) := by gcongr
      _ = 2 ^ a := by field_simp
      _ ≤ _ := n1'
  unfold expo
  simp only
  split
  · rename_i h1; exact ⟨h1, hup⟩
  · rename_i h1; exact ⟨hlo, by simpa using not_le.1 h1⟩

theorem roundEven_le {x : ℚ} {n : ℤ} (h : x ≤ n) : roundEven x ≤ n := by
  have h1 : ⌊x⌋ ≤ n := by exact_mod_cast (Int.floor_le x).trans h
  have hfl := Int.floor_le x
  unfold roundEven
  simp only
  split
  · exact h1
  · rename_i h2
    have h3 : ⌊x⌋ < n := by
      rcases lt_or_eq_of_le h1 with h3 | h3
      · exact h3
      · rw [h3] at h2; exact absurd (by linarith) h2
    split <;> [skip; split] <;> omega

theorem le_roundEven {x : ℚ} {n : ℤ} (h : (n : ℚ) ≤ x) : n ≤ roundEven x := by
  have h1 : n ≤ ⌊x⌋ := Int.le_floor.2 h
  unfold roundEven
  simp only
  split <;> [skip; split <;> [skip; split]] <;> omega

theorem abs_roundEven_sub (x : ℚ) : |(roundEven x : ℚ) - x| ≤ 1 / 2 := by
  have h1 := Int.floor_le x
  have h2 := Int.lt_floor_add_one x
  unfold roundEven
  simp only
  split
  · rw [abs_le]; constructor <;> linarith
  · split
    · push_cast; rw [abs_le]; constructor <;> linarith
    · split
      · rw [abs_le]; constructor <;> linarith
      · push_cast; rw [abs_le]; constructor <;> linarith

/-- The values of floats: at most 53 significant bits. -/
def Rep (q : ℚ) : Prop := ∃ n e : ℤ, |n| ≤ 2 ^ 53 ∧ q = n * pow2 e

theorem rep_int {z : ℤ} (h : |z| ≤ 2 ^ 53) : Rep z := ⟨z, 0, h, by simp [pow2]⟩

theorem Rep.neg {q : ℚ} (h : Rep q) : Rep (-q) := by
  obtain ⟨n, e, h1, rfl⟩ := h
  exact ⟨-n, e, by simpa using h1, by push_cast; ring⟩

/-- bounds on the scaled number -/
theorem scaled {q : ℚ} (h : q ≠ 0) : 2 ^ 52 ≤ |q / pow2 (expo q - 52)| ∧ |q / pow2 (expo q - 52)| < 2 ^ 53 := by
  obtain ⟨h1, h2⟩ := expo_spec h
  have hp := pow2_pos (expo q - 52)
  have e1 : pow2 (expo q) = 2 ^ 52 * pow2 (expo q - 52) := by
    rw [show expo q = 52 + (expo q - 52) by ring, pow2_add]
    rw [show (52 : ℤ) + (expo q - 52) - 52 = expo q - 52 by ring]
    congr 1
  have e2 : pow2 (expo q + 1) = 2 ^ 53 * pow2 (expo q - 52) := by
    rw [show expo q + 1 = 53 + (expo q - 52) by ring, pow2_add]
    congr 1
  rw [abs_div, abs_of_pos hp, le_div_iff₀ hp, div_lt_iff₀ hp, ← e1, ← e2]
  exact ⟨h1, h2⟩

theorem rep_rnd (q : ℚ) : Rep (rnd q) := by
  unfold rnd
  split
  · exact ⟨0, 0, by simp, by simp⟩
  · rename_i h
    refine ⟨_, _, ?_, rfl⟩
    obtain ⟨-, h2⟩ := scaled h
    rw [abs_le]
    rw [abs_lt] at h2
    exact ⟨le_roundEven (by push_cast; linarith [h2.1]), roundEven_le (by push_cast; linarith [h2.2])⟩

theorem rnd_le {q y : ℚ} (hy : Rep y) (h : q ≤ y) : rnd q ≤ y := by
  unfold rnd
  split
  · rename_i h0; rw [h0] at h; exact h
  · rename_i h0
    have hp := pow2_pos (expo q - 52)
    obtain ⟨n, e, hn, rfl⟩ := hy
    rw [← le_div_iff₀ hp]
    rcases le_or_gt (expo q - 52) e with he | he
    · obtain ⟨j, rfl⟩ : ∃ j : ℕ, e = j + (expo q - 52) := ⟨(e - (expo q - 52)).toNat, by omega⟩
      have e1 : (n : ℚ) * pow2 (j + (expo q - 52)) / pow2 (expo q - 52) = ((n * 2 ^ j : ℤ) : ℚ) := by
        rw [pow2_add, pow2_nat]
        push_cast
        field_simp
      rw [e1]
      refine Int.cast_le.2 (roundEven_le ?_)
      rw [← e1]
      gcongr
    · have hn' : |(n : ℚ)| ≤ 2 ^ 53 := by exact_mod_cast hn
      obtain ⟨h1, h2⟩ := scaled h0
      -- |y| ≤ 2 ^ expo q
      have hy : |(n : ℚ) * pow2 e / pow2 (expo q - 52)| ≤ 2 ^ 52 := by
        rw [abs_div, abs_of_pos hp, div_le_iff₀ hp, abs_mul, abs_of_pos (pow2_pos e)]
        have : pow2 (expo q - 52) = pow2 (expo q - 52 - 1) * 2 := by
          conv_lhs => rw [show expo q - 52 = (expo q - 52 - 1) + 1 by ring, pow2_add]
          simp [pow2_eq]
        rw [this]
        have h3 : pow2 e ≤ pow2 (expo q - 52 - 1) := pow2_le (by omega)
        nlinarith [pow2_pos e, abs_nonneg (n : ℚ)]
      have hxy : q / pow2 (expo q - 52) ≤ n * pow2 e / pow2 (expo q - 52) := by gcongr
      rw [abs_le] at hy
      rcases le_abs.1 h1 with h3 | h3
      · have : n * pow2 e / pow2 (expo q - 52) = ((2 ^ 52 : ℤ) : ℚ) := by push_cast; linarith [hy.2]
        rw [this]
        exact Int.cast_le.2 (roundEven_le (by rw [← this]; exact hxy))
      · have : roundEven (q / pow2 (expo q - 52)) ≤ -2 ^ 52 := roundEven_le (by push_cast; linarith)
        have : ((roundEven (q / pow2 (expo q - 52)) : ℤ) : ℚ) ≤ ((-2 ^ 52 : ℤ) : ℚ) := Int.cast_le.2 this
        push_cast at this
        linarith [hy.1]

theorem le_rnd {q y : ℚ} (hy : Rep y) (h : y ≤ q) : y ≤ rnd q := by
  unfold rnd
  split
  · rename_i h0; rw [h0] at h; exact h
  · rename_i h0
    have hp := pow2_pos (expo q - 52)
    obtain ⟨n, e, hn, rfl⟩ := hy
    rw [← div_le_iff₀ hp]
    rcases le_or_gt (expo q - 52) e with he | he
    · obtain ⟨j, rfl⟩ : ∃ j : ℕ, e = j + (expo q - 52) := ⟨(e - (expo q - 52)).toNat, by omega⟩
      have e1 : (n : ℚ) * pow2 (j + (expo q - 52)) / pow2 (expo q - 52) = ((n * 2 ^ j : ℤ) : ℚ) := by
        rw [pow2_add, pow2_nat]
        push_cast
        field_simp
      rw [e1]
      refine Int.cast_le.2 (le_roundEven ?_)
      rw [← e1]
      gcongr
    · have hn' : |(n : ℚ)| ≤ 2 ^ 53 := by exact_mod_cast hn
      obtain ⟨h1, h2⟩ := scaled h0
      have hy : |(n : ℚ) * pow2 e / pow2 (expo q - 52)| ≤ 2 ^ 52 := by
        rw [abs_div, abs_of_pos hp, div_le_iff₀ hp, abs_mul, abs_of_pos (pow2_pos e)]
        have : pow2 (expo q - 52) = pow2 (expo q - 52 - 1) * 2 := by
          conv_lhs => rw [show expo q - 52 = (expo q - 52 - 1) + 1 by ring, pow2_add]
          simp [pow2_eq]
        rw [this]
        have h3 : pow2 e ≤ pow2 (expo q - 52 - 1) := pow2_le (by omega)
        nlinarith [pow2_pos e, abs_nonneg (n : ℚ)]
      have hxy : n * pow2 e / pow2 (expo q - 52) ≤ q / pow2 (expo q - 52) := by gcongr
      rw [abs_le] at hy
      rcases le_abs.1 h1 with h3 | h3
      · have : 2 ^ 52 ≤ roundEven (q / pow2 (expo q - 52)) := le_roundEven (by push_cast; linarith)
        have : ((2 ^ 52 : ℤ) : ℚ) ≤ ((roundEven (q / pow2 (expo q - 52)) : ℤ) : ℚ) := Int.cast_le.2 this
        push_cast at this
        linarith [hy.2]
      · have : n * pow2 e / pow2 (expo q - 52) = ((-2 ^ 52 : ℤ) : ℚ) := by push_cast; linarith [hy.1]
        rw [this]
        exact Int.cast_le.2 (le_roundEven (by rw [← this]; exact hxy))

theorem rnd_of_rep {y : ℚ} (h : Rep y) : rnd y = y := le_antisymm (rnd_le h le_rfl) (le_rnd h le_rfl)

theorem rnd_rnd (q : ℚ) : rnd (rnd q) = rnd q := rnd_of_rep (rep_rnd q)

theorem rnd_int_le {q : ℚ} {z : ℤ} (hz : |z| ≤ 2 ^ 53) (h : q ≤ z) : rnd q ≤ z := rnd_le (rep_int hz) h

theorem int_le_rnd {q : ℚ} {z : ℤ} (hz : |z| ≤ 2 ^ 53) (h : (z : ℚ) ≤ q) : (z : ℚ) ≤ rnd q := le_rnd (rep_int hz) h

/-- The relative error of rounding is at most 2 ^ (-53). -/
theorem rnd_error (q : ℚ) : |rnd q - q| ≤ |q| / 2 ^ 53 := by
  unfold rnd
  split
  · rename_i h; simp [h]
  · rename_i h
    have hp := pow2_pos (expo q - 52)
    obtain ⟨h1, -⟩ := scaled h
    have e1 : (roundEven (q / pow2 (expo q - 52)) : ℚ) * pow2 (expo q - 52) - q
        = (roundEven (q / pow2 (expo q - 52)) - q / pow2 (expo q - 52)) * pow2 (expo q - 52) := by field_simp
    rw [e1, abs_mul, abs_of_pos hp]
    have h2 := abs_roundEven_sub (q / pow2 (expo q - 52))
    rw [abs_div, abs_of_pos hp, le_div_iff₀ hp] at h1
    nlinarith

theorem rnd_pos {q : ℚ} (h : 0 < q) : 0 < rnd q := by
  have h1 := rnd_error q
  rw [abs_of_pos h, abs_le] at h1
  have : q / 2 ^ 53 < q := div_lt_self h (by norm_num)
  linarith [h1.1]

end Abc
