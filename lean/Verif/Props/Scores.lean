import Mathlib.Algebra.BigOperators.Group.Finset.Piecewise
import Verif.Lemmas.Scores

/-!
# Properties of `scores.py`: C13–C16, C18
-/

namespace Abc
open Spec

/-! ## C13 -/

/-- C13: `thiele_score` is the Thiele score (for every marginal score function, every profile and every listing of the
committee, in any order and with any duplicates). -/
theorem C13_thieleScore_eq (f : ℕ → ℚ) (p : Profile) (W : List ℕ) :
    thieleScore f p W = score f p W.toFinset := thieleScore_eq f p W

example : thieleScore (marginalFct .pav) ⟨3, [⟨[0, 1, 2], 2⟩, ⟨[1], 1⟩], []⟩ [0, 1] = 4 := by decide +kernel

/-- C13: the named score functions.  With `u` approved committee members a voter of weight `w` contributes to the PAV score
`w (1 + 1/2 + … + 1/u)`, to the SLAV score `w (1 + 1/3 + … + 1/(2u-1))`, to the AV score `w u`, to the CC score `w` if `u ≥ 1`,
to the geometric score with base `b` the sum `w (1 + 1/b + … + 1/b^(u-1))`, to the "at least l" score `w` if `u ≥ l ≥ 1`. -/
theorem C13_named_scores (p : Profile) (W : List ℕ) :
    thieleScore (marginalFct .pav) p W
      = (p.voters.map (fun v => v.weight * ∑ i ∈ Finset.range (util v W.toFinset), 1 / ((i : ℚ) + 1))).sum ∧
    thieleScore (marginalFct .slav) p W
      = (p.voters.map (fun v => v.weight * ∑ i ∈ Finset.range (util v W.toFinset), 1 / (2 * (i : ℚ) + 1))).sum ∧
    thieleScore (marginalFct .av) p W = (p.voters.map (fun v => v.weight * (util v W.toFinset : ℚ))).sum ∧
    thieleScore (marginalFct .cc) p W
      = (p.voters.map (fun v => if 1 ≤ util v W.toFinset then v.weight else 0)).sum ∧
    ∀ b : ℚ, thieleScore (marginalFct (.geom b)) p W
      = (p.voters.map (fun v => v.weight * ∑ i ∈ Finset.range (util v W.toFinset), 1 / b ^ i)).sum := by
  refine ⟨?_, ?_, ?_, ?_, fun b => ?_⟩ <;> rw [thieleScore_eq] <;> unfold score <;> congr 1 <;>
    refine List.map_congr_left (fun v _ => ?_)
  · congr 1
    refine Finset.sum_congr rfl (fun i _ => ?_)
    simp [marginalFct]
  · congr 1
    refine Finset.sum_congr rfl (fun i _ => ?_)
    simp only [marginalFct, Nat.add_eq_zero_iff, one_ne_zero, and_false, if_false]
    push_cast
    congr 1
    ring
  · congr 1
    simp [marginalFct]
  · have h : ∀ n : ℕ, ∑ i ∈ Finset.range n, marginalFct .cc (i + 1) = if 1 ≤ n then 1 else 0 := by
      intro n
      simp only [marginalFct, Nat.add_eq_right]
      rw [Finset.sum_ite_eq']
      simp only [Finset.mem_range, Nat.one_le_iff_ne_zero, Nat.pos_iff_ne_zero]
    rw [h]
    split <;> simp

/-! ## C14 -/

/-- C14: for every candidate outside the committee the marginal score is the gain in Thiele score; members get -1. -/
theorem C14_marginalAdd (f : ℕ → ℚ) (p : Profile) (hp : p.WF) (W : List ℕ) :
    (marginalAdd f p W).length = p.numCand ∧
    ∀ c < p.numCand,
      (c ∉ W → (marginalAdd f p W)[c]? = some (thieleScore f p (c :: W) - thieleScore f p W)) ∧
      (c ∈ W → (marginalAdd f p W)[c]? = some (-1)) := by
  refine ⟨marginalAdd_length f p W, ?_⟩
  intro c hc
  have h := marginalAdd_getD f p hp W c hc
  have hlen : c < (marginalAdd f p W).length := by rw [marginalAdd_length]; exact hc
  have hget : (marginalAdd f p W)[c]? = some ((marginalAdd f p W).getD c 0) := by
    simp [List.getD_eq_getElem?_getD, hlen]
  refine ⟨?_, ?_⟩ <;> intro hW
  · rw [hget, h, if_neg hW, thieleScore_eq, thieleScore_eq, List.toFinset_cons,
      score_insert f p W.toFinset c (by simpa using hW)]
  · rw [hget, h, if_pos hW]

example : marginalAdd (marginalFct .pav) ⟨3, [⟨[0, 1, 2], 2⟩, ⟨[1], 1⟩], []⟩ [0] = [-1, 2, 1] := by decide +kernel

/-! ## C15 -/

/-- C15: for every member the marginal score is the loss in Thiele score when it is removed; every non-member gets a strictly
larger value than every member. -/
theorem C15_marginalRemove (f : ℕ → ℚ) (p : Profile) (hp : p.WF) (W : List ℕ) (hW : W.Nodup) :
    (marginalRemove f p W).length = p.numCand ∧
    (∀ c < p.numCand, c ∈ W →
      (marginalRemove f p W)[c]? = some (thieleScore f p W - thieleScore f p (W.erase c))) ∧
    (∀ c < p.numCand, ∀ d < p.numCand, c ∈ W → d ∉ W →
      ∃ x y, (marginalRemove f p W)[c]? = some x ∧ (marginalRemove f p W)[d]? = some y ∧ x < y) := by
  have hget : ∀ c < p.numCand, (marginalRemove f p W)[c]? = some ((marginalRemove f p W).getD c 0) := by
    intro c hc
    have hlen : c < (marginalRemove f p W).length := by rw [marginalRemove_length]; exact hc
    simp [List.getD_eq_getElem?_getD, hlen]
  refine ⟨marginalRemove_length f p W, ?_, ?_⟩
  · intro c hc hcW
    rw [hget c hc, marginalRemove_mem f p hp W c hc hcW, thieleScore_eq, thieleScore_eq,
      ← score_erase f p W.toFinset c (by simpa using hcW)]
    congr 3
    ext x
    simp [hW.mem_erase_iff]
  · intro c hc d hd hcW hdW
    exact ⟨_, _, hget c hc, hget d hd, marginalRemove_notMem f p W c d hc hcW hd hdW⟩

example : marginalRemove (marginalFct .pav) ⟨3, [⟨[0, 1, 2], 2⟩, ⟨[1], 1⟩], []⟩ [0, 1] = [1, 2, 3] := by decide +kernel

/-! ## C16 -/

/-- The score functions covered by C16. -/
def ScoreId.Proper : ScoreId → Prop
  | .geom b => 1 ≤ b
  | .atleast _ => False
  | _ => True

/-- C16: pav, slav, cc, av and geom with base ≥ 1 are non-negative and non-increasing from 1 on. -/
theorem C16_nonneg_nonincreasing (s : ScoreId) (hs : s.Proper) :
    (∀ i, 0 ≤ marginalFct s i) ∧ (∀ i, 1 ≤ i → marginalFct s (i + 1) ≤ marginalFct s i) := by
  cases s with
  | pav =>
    refine ⟨fun i => ?_, fun i hi => ?_⟩
    · simp only [marginalFct]; split
      · exact le_refl _
      · positivity
    · simp only [marginalFct]
      rw [if_neg (by omega), if_neg (by omega)]
      have : (0 : ℚ) < i := by exact_mod_cast hi
      refine one_div_le_one_div_of_le this ?_
      push_cast; linarith
  | slav =>
    refine ⟨fun i => ?_, fun i hi => ?_⟩
    · simp only [marginalFct]; split
      · exact le_refl _
      · rename_i h
        have : (1 : ℚ) ≤ i := by exact_mod_cast Nat.one_le_iff_ne_zero.2 h
        apply div_nonneg <;> linarith
    · simp only [marginalFct]
      rw [if_neg (by omega), if_neg (by omega)]
      have : (1 : ℚ) ≤ i := by exact_mod_cast hi
      refine one_div_le_one_div_of_le (by linarith) ?_
      push_cast; linarith
  | cc =>
    refine ⟨fun i => ?_, fun i hi => ?_⟩
    · simp only [marginalFct]; split <;> norm_num
    · simp only [marginalFct]
      rw [if_neg (by omega)]
      split <;> norm_num
  | av =>
    refine ⟨fun i => ?_, fun i hi => ?_⟩
    · simp only [marginalFct]; split <;> norm_num
    · simp only [marginalFct]
      rw [if_pos hi, if_pos (by omega)]
  | geom b =>
    have hb : (1 : ℚ) ≤ b := hs
    have hb0 : (0 : ℚ) < b := by linarith
    refine ⟨fun i => ?_, fun i hi => ?_⟩
    · simp only [marginalFct]; split
      · exact le_refl _
      · positivity
    · simp only [marginalFct]
      rw [if_neg (by omega), if_neg (by omega)]
      refine one_div_le_one_div_of_le (by positivity) ?_
      exact pow_le_pow_right₀ hb (by omega)
  | atleast l => exact absurd hs id

/-- C16: `geomX` with `0 < X < 1` is *not* non-increasing (see C22). -/
theorem C16_geom_small_base_increasing (b : ℚ) (h0 : 0 < b) (h1 : b < 1) :
    marginalFct (.geom b) 1 < marginalFct (.geom b) 2 := by
  simp only [marginalFct]
  norm_num
  exact (one_lt_inv₀ h0).2 h1

/-- C16: `cc` and `atleast1` are the same function. -/
theorem C16_cc_eq_atleast1 : marginalFct .cc = marginalFct (.atleast 1) := by
  funext i
  simp only [marginalFct]
  congr 1
  simp only [eq_iff_iff]
  omega

/-- C16: `cumulative_score` is the sum of the first marginal scores. -/
theorem C16_cumulative (f : ℕ → ℚ) (n : ℕ) : cumulativeScore f n = ∑ i ∈ Finset.range n, f (i + 1) := by
  unfold cumulativeScore
  induction n with
  | zero => simp
  | succ n ih => rw [List.range_succ, List.map_append, List.sum_append, ih, Finset.sum_range_succ]; simp

/-- C16: `thiele_score` in terms of `cumulative_score`. -/
theorem C16_thieleScore_cumulative (f : ℕ → ℚ) (p : Profile) (W : List ℕ) :
    thieleScore f p W = (p.voters.map (fun v => v.weight * cumulativeScore f (util v W.toFinset))).sum := by
  rw [thieleScore_eq]
  unfold score
  simp only [C16_cumulative]

/-- C16: the AV score of a committee is the total weight of its approvals. -/
theorem C16_av_score (p : Profile) (W : List ℕ) :
    thieleScore (marginalFct .av) p W
      = ∑ c ∈ W.toFinset, (p.voters.map (fun v => if c ∈ v.A then v.weight else 0)).sum := by
  rw [thieleScore_eq]
  unfold score
  induction p.voters with
  | nil => simp
  | cons v vs ih =>
    simp only [List.map_cons, List.sum_cons, Finset.sum_add_distrib]
    rw [ih]
    congr 1
    rw [← Finset.sum_filter, Finset.sum_const, nsmul_eq_mul]
    have h1 : ∀ i, marginalFct .av (i + 1) = 1 := fun i => by simp [marginalFct]
    simp only [h1, Finset.sum_const, Finset.card_range, nsmul_eq_mul, mul_one]
    rw [mul_comm]
    congr 2
    unfold util
    congr 1
    ext x; simp [and_comm]

/-- C16: the at-least-ℓ score of a committee is the total weight of the voters with at least ℓ ≥ 1 approved members. -/
theorem C16_atleast_score (p : Profile) (W : List ℕ) (l : ℕ) (hl : 1 ≤ l) :
    thieleScore (marginalFct (.atleast l)) p W
      = (p.voters.map (fun v => if l ≤ util v W.toFinset then v.weight else 0)).sum := by
  rw [thieleScore_eq]
  unfold score
  congr 1
  refine List.map_congr_left ?_
  intro v _
  have : ∀ n, ∑ i ∈ Finset.range n, marginalFct (.atleast l) (i + 1) = if l ≤ n then 1 else 0 := by
    intro n
    induction n with
    | zero => simp; omega
    | succ n ih =>
      rw [Finset.sum_range_succ, ih]
      simp only [marginalFct]
      push_cast
      by_cases h1 : l ≤ n
      · rw [if_pos h1, if_neg (by omega), if_pos (by omega), add_zero]
      · by_cases h2 : l = n + 1
        · rw [if_neg h1, if_pos (by omega), if_pos (by omega), zero_add]
        · rw [if_neg h1, if_neg (by omega), if_neg (by omega), zero_add]
  rw [this]
  split <;> simp

/-- C16: names of score functions are resolved as documented, and only those; unknown names raise UnknownScoreFunctionError, the names
`geom…` and `atleast…` without a number raise ValueError. -/
theorem C16_getScoreId (pf : List Char → Option ℚ) (pi : List Char → Option ℤ) (s : List Char) :
    (∀ x, getScoreId pf pi s = .ok x ↔
      s = "pav".toList ∧ x = .pav ∨ s = "slav".toList ∧ x = .slav ∨ s = "cc".toList ∧ x = .cc ∨ s = "av".toList ∧ x = .av ∨
      (∃ t b, s = "geom".toList ++ t ∧ pf t = some b ∧ x = .geom b) ∨
      (∃ t l, s = "atleast".toList ++ t ∧ pi t = some l ∧ x = .atleast l)) ∧
    (∀ e, getScoreId pf pi s = .error e →
      ((∃ t, s = "geom".toList ++ t) ∨ ∃ t, s = "atleast".toList ++ t) ∧ e = .valueError ∨
      (¬ ((∃ t, s = "geom".toList ++ t) ∨ ∃ t, s = "atleast".toList ++ t) ∧ e = .unknownScoreFunction)) := by
  have hg : s.take 4 = "geom".toList → s = "geom".toList ++ s.drop 4 := fun h => by rw [← h, List.take_append_drop]
  have ha : s.take 7 = "atleast".toList → s = "atleast".toList ++ s.drop 7 := fun h => by rw [← h, List.take_append_drop]
  constructor
  · intro x
    constructor
    · intro h
      unfold getScoreId at h
      split at h
      · rename_i h1; cases h; exact Or.inl ⟨h1, rfl⟩
      split at h
      · rename_i h1; cases h; exact Or.inr (Or.inl ⟨h1, rfl⟩)
      split at h
      · rename_i h1; cases h; exact Or.inr (Or.inr (Or.inl ⟨h1, rfl⟩))
      split at h
      · rename_i h1; cases h; exact Or.inr (Or.inr (Or.inr (Or.inl ⟨h1, rfl⟩)))
      split at h
      · rename_i h1
        cases hb : pf (s.drop 4) with
        | none => rw [hb] at h; cases h
        | some b => rw [hb] at h; cases h; exact Or.inr (Or.inr (Or.inr (Or.inr (Or.inl ⟨_, b, hg h1, hb, rfl⟩))))
      split at h
      · rename_i h1
        cases hb : pi (s.drop 7) with
        | none => rw [hb] at h; cases h
        | some b => rw [hb] at h; cases h; exact Or.inr (Or.inr (Or.inr (Or.inr (Or.inr ⟨_, b, ha h1, hb, rfl⟩))))
      · cases h
    · rintro (⟨rfl, rfl⟩ | ⟨rfl, rfl⟩ | ⟨rfl, rfl⟩ | ⟨rfl, rfl⟩ | ⟨t, b, rfl, h, rfl⟩ | ⟨t, l, rfl, h, rfl⟩)
      · simp [getScoreId]
      · simp [getScoreId]
      · simp [getScoreId]
      · simp [getScoreId]
      · simp [getScoreId, h]
      · simp [getScoreId, h]
  · intro e h
    unfold getScoreId at h
    split at h
    · cases h
    split at h
    · cases h
    split at h
    · cases h
    split at h
    · cases h
    split at h
    · rename_i h1
      cases hb : pf (s.drop 4) with
      | none => rw [hb] at h; cases h; exact Or.inl ⟨Or.inl ⟨_, hg h1⟩, rfl⟩
      | some b => rw [hb] at h; cases h
    split at h
    · rename_i h1
      cases hb : pi (s.drop 7) with
      | none => rw [hb] at h; cases h; exact Or.inl ⟨Or.inr ⟨_, ha h1⟩, rfl⟩
      | some b => rw [hb] at h; cases h
    · rename_i h1 h2
      cases h
      refine Or.inr ⟨?_, rfl⟩
      · rintro (⟨t, rfl⟩ | ⟨t, rfl⟩)
        · exact h1 (by simp)
        · exact h2 (by simp)

example : marginalFct .slav 3 = 1/5 ∧ marginalFct (.geom (3/2)) 3 = 4/9 ∧ marginalFct .pav 4 = 1/4 := by
  decide +kernel

/-! ## C18 -/

theorem hamming_dist (v : Voter) (hv : v.approved.Nodup) (W : List ℕ) (hW : W.Nodup) :
    hamming v.approved W = dist v W.toFinset := C08_hamming_eq_symmDiff v.approved W hv hW

/-- C18: `minimaxav_score` bounds every voter's Hamming distance and is attained (it is 0 when there are no voters). -/
theorem C18_minimaxavScore (p : Profile) (hp : p.WF) (W : List ℕ) (hW : W.Nodup) :
    (∀ v ∈ p.voters, dist v W.toFinset ≤ minimaxavScore p W) ∧
    (p.voters = [] → minimaxavScore p W = 0) ∧
    (p.voters ≠ [] → ∃ v ∈ p.voters, dist v W.toFinset = minimaxavScore p W) := by
  obtain ⟨-, h2, h3⟩ := minimaxavScore_fold p.voters (fun v => hamming v.approved W) 0
  refine ⟨?_, ?_, ?_⟩
  · intro v hv
    rw [← hamming_dist v (hp.nodup v hv) W hW]
    exact h2 v hv
  · intro h; simp [minimaxavScore, h]
  · intro hne
    rcases h3 with h3 | ⟨v, hv, h3⟩
    · obtain ⟨v, hv⟩ := List.exists_mem_of_ne_nil _ hne
      refine ⟨v, hv, ?_⟩
      rw [← hamming_dist v (hp.nodup v hv) W hW]
      have := h2 v hv
      have h4 : minimaxavScore p W = 0 := h3
      have h5 : hamming v.approved W ≤ minimaxavScore p W := this
      omega
    · exact ⟨v, hv, by rw [← hamming_dist v (hp.nodup v hv) W hW]; exact h3.symm⟩

/-- C18: `num_voters_with_upper_bounded_hamming_distance` counts the voters within the bound. -/
theorem C18_numVotersUpperBounded (p : Profile) (hp : p.WF) (W : List ℕ) (hW : W.Nodup) (ub : ℤ) :
    numVotersUpperBounded ub p W = p.voters.countP (fun v => decide ((dist v W.toFinset : ℤ) ≤ ub)) := by
  unfold numVotersUpperBounded
  rw [List.countP_eq_length_filter]
  congr 1
  refine List.filter_congr ?_
  intro v hv
  rw [hamming_dist v (hp.nodup v hv) W hW]

example : minimaxavScore ⟨4, [⟨[0, 1], 1⟩, ⟨[2, 3], 1⟩], []⟩ [0, 1] = 4 := by decide +kernel

end Abc
