import Verif.Props.FloatAccuracyMes

/-!
# C94: the shares of small elections with integer weights are well separated
-/

namespace Abc
open Spec

variable {p : Profile}

/-- A price is a share: those who can pay it pay the same per unit of weight, the others pay all they have. -/
theorem price_share (hp : p.WF) {x : VoterMap p} {c : ℕ} {q : ℚ} (h : IsPrice p x c q) :
    ∃ L M : Group p, 0 < wt p L ∧ q = share p x L M := by
  set L := (backers p c).filter (fun i => ¬ x i < q * (p.voters.get i).weight) with hL
  set M := (backers p c).filter (fun i => x i < q * (p.voters.get i).weight) with hM
  have hsplit : ∑ i ∈ M, x i + q * wt p L = 1 := by
    rw [← h.1]
    unfold payments
    rw [← Finset.sum_filter_add_sum_filter_not (backers p c) (fun i => x i < q * (p.voters.get i).weight)]
    congr 1
    · exact Finset.sum_congr rfl (fun i hi => (min_eq_left (Finset.mem_filter.1 hi).2.le).symm)
    · unfold wt
      rw [Finset.mul_sum]
      exact Finset.sum_congr rfl (fun i hi => (min_eq_right (not_lt.1 (Finset.mem_filter.1 hi).2)).symm)
  have hne : L.Nonempty := by
    by_contra hemp
    rw [Finset.not_nonempty_iff_eq_empty] at hemp
    rw [hemp] at hsplit
    simp only [wt, Finset.sum_empty, mul_zero, add_zero] at hsplit
    have hMb : M = backers p c := by
      refine Finset.filter_true_of_mem ?_
      intro i hi
      by_contra hlt
      have : i ∈ L := Finset.mem_filter.2 ⟨hi, hlt⟩
      rw [hemp] at this
      simp at this
    have hMn : M.Nonempty := by
      rw [Finset.nonempty_iff_ne_empty]
      intro h0
      rw [h0] at hsplit
      simp at hsplit
    obtain ⟨j, hj, hmax⟩ := Finset.exists_max_image M (fun i => x i / (p.voters.get i).weight) hMn
    have hq' : x j / (p.voters.get j).weight < q := by
      rw [div_lt_iff₀ (weight_pos hp j)]
      exact (Finset.mem_filter.1 hj).2
    have hlt := h.2 _ hq'
    have : payments p x c (x j / (p.voters.get j).weight) = ∑ i ∈ M, x i := by
      unfold payments
      rw [← hMb]
      refine Finset.sum_congr rfl (fun i hi => min_eq_left ?_)
      exact (div_le_iff₀ (weight_pos hp i)).1 (hmax i hi)
    rw [this, hsplit] at hlt
    exact lt_irrefl _ hlt
  have hpos := wt_pos_of_nonempty hp hne
  refine ⟨L, M, hpos, ?_⟩
  unfold share
  rw [eq_div_iff hpos.ne']
  linarith

/-- A sum of fractions with the denominator `D`. -/
theorem int_sum {D : ℕ} {x : VoterMap p} (hx : ∀ i, ∃ z : ℤ, x i = z / D) (G : Group p) : ∃ z : ℤ, ∑ i ∈ G, x i = z / D := by
  choose z hz using hx
  refine ⟨∑ i ∈ G, z i, ?_⟩
  push_cast
  rw [Finset.sum_div]
  exact Finset.sum_congr rfl (fun i _ => hz i)

/-- A share is a fraction whose denominator is the product of the denominator so far and the weight of those who pay it. -/
theorem share_fraction (hw : IntegerWeights p) {D : ℕ} (hD : 0 < D) {x : VoterMap p} (hx : ∀ i, ∃ z : ℤ, x i = z / D) (L M : Group p)
    (hL : 0 < wt p L) : ∃ (z : ℤ) (n : ℕ), 0 < n ∧ wt p L = n ∧ share p x L M = z / (D * n) := by
  obtain ⟨n, hn⟩ := wt_integer hw L
  obtain ⟨z, hz⟩ := int_sum hx M
  have hn0 : 0 < n := by rw [hn] at hL; exact_mod_cast hL
  refine ⟨D - z, n, hn0, hn, ?_⟩
  have hD' : (D : ℚ) ≠ 0 := by positivity
  have hn' : (n : ℚ) ≠ 0 := by positivity
  unfold share
  rw [hz, hn]
  push_cast
  field_simp

/-- The budgets after electing `W` are fractions with a denominator of at most `T ^ (|W| + 1)`. -/
theorem mesRun_denominator (hp : p.WF) (hw : IntegerWeights p) (T : ℕ) (hT : total p = T) (hT1 : 1 ≤ T) {B : ℕ} {W : List ℕ}
    {x : VoterMap p} (h : Run (MESBest p) (mesUpd p) [] (budgetOf p (B / total p)) W x) :
    ∃ D : ℕ, 0 < D ∧ D ≤ T ^ (W.length + 1) ∧ ∀ i, ∃ z : ℤ, x i = z / D := by
  induction h with
  | start =>
    refine ⟨T, hT1, by simp, ?_⟩
    intro i
    obtain ⟨n, hn⟩ := hw _ (List.get_mem p.voters i)
    refine ⟨n * B, ?_⟩
    unfold budgetOf
    rw [hn, hT]
    push_cast
    ring
  | @step W x c _ hc ih =>
    obtain ⟨D, h1, h2, h3⟩ := ih
    obtain ⟨-, -, q, hq, -⟩ := hc
    obtain ⟨L, M, hL, rfl⟩ := price_share hp hq
    obtain ⟨z, n, hn0, hn, hz⟩ := share_fraction hw h1 h3 L M hL
    have hnT : n ≤ T := by
      have : (n : ℚ) ≤ T := by rw [← hn, ← hT]; exact wt_le_total hp L
      exact_mod_cast this
    refine ⟨D * n, Nat.mul_pos h1 hn0, ?_, ?_⟩
    · rw [List.length_append, List.length_singleton, pow_succ]
      exact Nat.mul_le_mul h2 hnT
    · intro i
      obtain ⟨y, hy⟩ := h3 i
      obtain ⟨m, hm⟩ := hw _ (List.get_mem p.voters i)
      have hD' : (D : ℚ) ≠ 0 := by positivity
      have hn' : (n : ℚ) ≠ 0 := by positivity
      unfold mesUpd
      split
      · rw [price_eq hq]
        rcases le_total (x i) (share p x L M * (p.voters.get i).weight) with hle | hle
        · rw [min_eq_left hle]
          exact ⟨0, by simp⟩
        · rw [min_eq_right hle]
          refine ⟨y * n - z * m, ?_⟩
          rw [hy, hz, hm]
          push_cast
          field_simp
      · refine ⟨y * n, ?_⟩
        rw [hy]
        push_cast
        field_simp

/-- A positive fraction with a small denominator. -/
theorem pos_fraction_gap {a : ℚ} (ha : 0 < a) {z : ℤ} {N : ℕ} (hN : 0 < N) (h : a = z / N) : 1 / (N : ℚ) ≤ a := by
  have hq : (0 : ℚ) < N := by exact_mod_cast hN
  rw [h] at ha ⊢
  have h1 := (div_pos_iff_of_pos_right hq).1 ha
  have h2 : (0 : ℤ) < z := by exact_mod_cast h1
  have h3 : (1 : ℚ) ≤ z := by exact_mod_cast h2
  gcongr

/-- Integer weights with a small total separate the shares. -/
theorem sharesSeparated_of_small (hp : p.WF) (hw : IntegerWeights p) (k B : ℕ) (h : 2 * total p ^ (k + 2) ≤ 10 ^ 12) :
    SharesSeparated p k B := by
  intro W x hrun hW
  obtain ⟨T, hT⟩ : ∃ T : ℕ, total p = T := wt_integer hw Finset.univ
  have leT : ∀ (L : Group p) (n : ℕ), wt p L = n → n ≤ T := by
    intro L n hn
    have : (n : ℚ) ≤ T := by rw [← hn, ← hT]; exact wt_le_total hp L
    exact_mod_cast this
  rw [hT] at h
  have main : ∀ N : ℕ, 0 < N → N ≤ T ^ (k + 2) → (2 : ℚ) / 10 ^ 12 ≤ 1 / N := by
    intro N h0 hN
    have hq : (0 : ℚ) < N := by exact_mod_cast h0
    rw [div_le_div_iff₀ (by norm_num) hq]
    have : (N : ℚ) ≤ (T : ℚ) ^ (k + 2) := by exact_mod_cast hN
    linarith
  by_cases hT1 : 1 ≤ T
  · obtain ⟨D, h1, h2, h3⟩ := mesRun_denominator hp hw T hT hT1 hrun
    have hDT : D ≤ T ^ k := h2.trans (Nat.pow_le_pow_right hT1 (by omega))
    have hDq : (D : ℚ) ≠ 0 := by positivity
    constructor
    · intro L M L' M' hL hL' hlt
      obtain ⟨z, n, hn0, hn, hz⟩ := share_fraction hw h1 h3 L M hL
      obtain ⟨z', n', hn0', hn', hz'⟩ := share_fraction hw h1 h3 L' M' hL'
      have hnq : (n : ℚ) ≠ 0 := by positivity
      have hnq' : (n' : ℚ) ≠ 0 := by positivity
      have hgap := pos_fraction_gap (a := share p x L' M' - share p x L M) (by linarith) (z := z' * n - z * n') (N := D * n * n')
        (Nat.mul_pos (Nat.mul_pos h1 hn0) hn0') (by
          rw [hz, hz']
          push_cast
          field_simp)
      have := main (D * n * n') (Nat.mul_pos (Nat.mul_pos h1 hn0) hn0') (by
        calc D * n * n' ≤ T ^ k * T * T := Nat.mul_le_mul (Nat.mul_le_mul hDT (leT L n hn)) (leT L' n' hn')
          _ = T ^ (k + 2) := by ring)
      linarith
    · intro L M i hL hlt
      obtain ⟨z, n, hn0, hn, hz⟩ := share_fraction hw h1 h3 L M hL
      obtain ⟨y, hy⟩ := h3 i
      obtain ⟨m, hm⟩ := hw _ (List.get_mem p.voters i)
      have hm0 : 0 < m := by
        have := weight_pos hp i
        rw [hm] at this
        exact_mod_cast this
      have hmT : m ≤ T := leT {i} m (by unfold wt; rw [Finset.sum_singleton, hm])
      have hnq : (n : ℚ) ≠ 0 := by positivity
      have hmq : (0 : ℚ) < m := by exact_mod_cast hm0
      set w := (p.voters.get i).weight with hwd
      have hgap := pos_fraction_gap (a := share p x L M * w - x i) (by linarith) (z := z * m - y * n) (N := D * n)
        (Nat.mul_pos h1 hn0) (by
          rw [hz, hy, hm]
          push_cast
          field_simp)
      have h4 := main (D * n * m) (Nat.mul_pos (Nat.mul_pos h1 hn0) hm0) (by
        calc D * n * m ≤ T ^ k * T * T := Nat.mul_le_mul (Nat.mul_le_mul hDT (leT L n hn)) hmT
          _ = T ^ (k + 2) := by ring)
      have h5 : (2 : ℚ) / 10 ^ 12 * w ≤ 1 / (D * n : ℕ) := by
        rw [hm]
        refine (mul_le_mul_of_nonneg_right h4 hmq.le).trans (le_of_eq ?_)
        push_cast
        field_simp
      linarith
  · have hT0 : T = 0 := by omega
    have hno : ∀ L : Group p, ¬ 0 < wt p L := by
      intro L hL
      have := wt_le_total hp L
      rw [hT, hT0] at this
      norm_num at this
      linarith
    exact ⟨fun L M L' M' hL => absurd hL (hno L), fun L M i hL => absurd hL (hno L)⟩

end Abc
