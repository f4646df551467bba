import Verif.Props.MoreAxioms

/-!
# Pareto optimality of lex-CC, lex-Minimax-AV and SAV; JR of lex-CC; increment completion violates JR
-/

namespace Abc

open Spec

section
variable {p : Profile}

theorem sum_coverage_le (hp : p.WF) (l : ℕ) {A B : Finset ℕ} (h : ∀ v ∈ p.voters, util v A ≤ util v B) :
    coverage p l A ≤ coverage p l B := by
  unfold coverage
  refine List.sum_le_sum fun v hv => ?_
  by_cases h1 : l ≤ util v A
  · rw [if_pos h1, if_pos (h1.trans (h v hv))]
  · rw [if_neg h1]
    split
    · exact (hp.weight v hv).le
    · exact le_rfl

theorem lexcc_pareto (hp : p.WF) {k : ℕ} {A : Finset ℕ} (h : LexccOpt p k A) : ParetoOptimal p A := by
  intro B hB hd
  rw [h.1.2] at hB
  refine h.2 B hB ?_
  unfold coverageVector
  rw [map_range_lt_iff]
  obtain ⟨v, hv, hlt⟩ := hd.2
  have hle : ∀ l, coverage p l A ≤ coverage p l B := fun l => sum_coverage_le hp l hd.1
  have hex : ∃ i, coverage p (i + 1) A < coverage p (i + 1) B := by
    refine ⟨util v A, ?_⟩
    unfold coverage
    refine List.sum_lt_sum _ _ (fun w hw => ?_) ⟨v, hv, ?_⟩
    · by_cases h1 : util v A + 1 ≤ util w A
      · rw [if_pos h1, if_pos (h1.trans (hd.1 w hw))]
      · rw [if_neg h1]
        split
        · exact (hp.weight w hw).le
        · exact le_rfl
    · rw [if_neg (by omega), if_pos (by omega)]
      exact hp.weight v hv
  obtain ⟨j0, h1, hmin⟩ : ∃ j, coverage p (j + 1) A < coverage p (j + 1) B ∧ ∀ i < j, ¬ coverage p (i + 1) A < coverage p (i + 1) B := by
    classical
    exact ⟨Nat.find hex, Nat.find_spec hex, fun i hi => Nat.find_min hex hi⟩
  refine ⟨j0, ?_, fun j hj => ?_, h1⟩
  · by_contra hcon
    rw [not_lt] at hcon
    have h0 : coverage p (j0 + 1) B = 0 := by
      unfold coverage
      refine List.sum_eq_zero fun x hx => ?_
      obtain ⟨w, hw, rfl⟩ := List.mem_map.1 hx
      have : util w B ≤ k := by
        unfold util
        rw [← hB.2]
        exact Finset.card_le_card Finset.inter_subset_right
      rw [if_neg (by omega)]
    have h2 : 0 ≤ coverage p (j0 + 1) A := by
      unfold coverage
      refine List.sum_nonneg fun x hx => ?_
      obtain ⟨w, hw, rfl⟩ := List.mem_map.1 hx
      split
      · exact (hp.weight w hw).le
      · exact le_rfl
    linarith
  · exact le_antisymm (hle _) (not_lt.1 (hmin j hj))

theorem coverage_one (W : Finset ℕ) : coverage p 1 W = score (marginalFct .cc) p W := by
  rw [cc_score]
  unfold coverage wt
  rw [voters_sum_fin, Finset.sum_filter]
  refine Finset.sum_congr rfl fun i _ => ?_
  rw [util_sat]
  by_cases h : sat p W i = 0
  · rw [if_neg (by omega), if_neg (by simpa using h)]
  · rw [if_pos (by omega), if_pos h]

theorem lexcc_cc {k : ℕ} (hk : 1 ≤ k) {A : Finset ℕ} (h : LexccOpt p k A) : ThieleOpt (marginalFct .cc) p k A := by
  refine ⟨h.1, fun B hB => ?_⟩
  rw [← coverage_one, ← coverage_one]
  by_contra hlt
  rw [not_le] at hlt
  refine h.2 B hB ?_
  unfold coverageVector
  rw [map_range_lt_iff]
  exact ⟨0, hk, fun j hj => absurd hj (by omega), hlt⟩

theorem lexcc_JR (hp : p.WF) (hne : p.voters ≠ []) {k : ℕ} (hk : 1 ≤ k) {A : Finset ℕ} (h : LexccOpt p k A) :
    JR p A (total p / k) := cc_JR p hp hne k hk A (lexcc_cc hk h)

/-! ## lex-Minimax-AV -/

theorem dist_util (v : Voter) (W : Finset ℕ) : dist v W + 2 * util v W = v.A.card + W.card := by
  unfold dist util
  have h1 := Finset.card_sdiff_add_card_inter v.A W
  have h2 := Finset.card_sdiff_add_card_inter W v.A
  have h3 : (symmDiff v.A W).card = (v.A \ W).card + (W \ v.A).card := by
    rw [symmDiff_def, Finset.sup_eq_union, Finset.card_union_of_disjoint]
    rw [Finset.disjoint_left]
    intro x hx hx'
    exact (Finset.mem_sdiff.1 hx).2 (Finset.mem_sdiff.1 hx').1
  rw [Finset.inter_comm] at h2
  omega

theorem lexminimaxav_pareto {k : ℕ} {A : Finset ℕ} (h : LexminimaxavOpt p k A) : ParetoOptimal p A := by
  intro B hB hd
  rw [h.1.2] at hB
  refine h.2 B hB ?_
  have hle : ∀ v ∈ p.voters, dist v B ≤ dist v A := by
    intro v hv
    have h1 := dist_util v A
    have h2 := dist_util v B
    have := hd.1 v hv
    rw [h.1.2] at h1
    rw [hB.2] at h2
    omega
  obtain ⟨v, hv, hlt⟩ := hd.2
  have hlt' : dist v B < dist v A := by
    have h1 := dist_util v A
    have h2 := dist_util v B
    rw [h.1.2] at h1
    rw [hB.2] at h2
    omega
  have hperm : ∀ W, (distVector p W).Perm (p.voters.map (fun v => dist v W)) := by
    intro W
    unfold distVector
    rw [← Multiset.coe_eq_coe, Multiset.sort_eq]
  have hlen : ∀ W, (distVector p W).length = p.voters.length := fun W => by rw [(hperm W).length_eq, List.length_map]
  have hsorted : ∀ W, (distVector p W).Pairwise (· ≥ ·) := fun W => by
    unfold distVector
    exact Multiset.pairwise_sort _ _
  rcases lt_trichotomy (distVector p B) (distVector p A) with h1 | h1 | h1
  · exact h1
  · exfalso
    have e : (p.voters.map (fun v => dist v B)).sum = (p.voters.map (fun v => dist v A)).sum := by
      rw [← (hperm B).sum_eq, ← (hperm A).sum_eq, h1]
    have := List.sum_lt_sum (l := p.voters) (fun v => dist v B) (fun v => dist v A) hle ⟨v, hv, hlt'⟩
    omega
  · exfalso
    obtain ⟨d, -, h2, -⟩ := lt_cnt (by rw [hlen, hlen]) (hsorted A) (hsorted B) h1
    unfold cntLe at h2
    rw [(hperm A).countP_eq, (hperm B).countP_eq, List.countP_map, List.countP_map] at h2
    refine absurd h2 (not_lt.2 (List.countP_mono_left fun w hw hw' => ?_))
    simp only [Function.comp_apply, decide_eq_true_eq] at hw' ⊢
    exact (hle w hw).trans hw'

/-! ## SAV -/

theorem sum_candScore_sav (W : Finset ℕ) :
    ∑ c ∈ W, candScore .sav p c = (p.voters.map (fun v => v.weight / (v.A.card : ℚ) * (util v W : ℚ))).sum := by
  unfold candScore
  induction p.voters with
  | nil => simp
  | cons v vs ih =>
    simp only [List.map_cons, List.sum_cons, Finset.sum_add_distrib]
    rw [ih]
    congr 1
    rw [← Finset.sum_filter, Finset.sum_const, nsmul_eq_mul, mul_comm]
    congr 2
    unfold util
    congr 1
    ext x; simp [and_comm]

theorem sav_pareto (hp : p.WF) {k : ℕ} {A : Finset ℕ} (h : SepOpt .sav p k A) : ParetoOptimal p A := by
  intro B hB hd
  rw [h.1.2] at hB
  have h1 := h.2 B hB
  rw [sum_candScore_sav, sum_candScore_sav] at h1
  refine absurd h1 (not_le.2 ?_)
  obtain ⟨v, hv, hlt⟩ := hd.2
  refine List.sum_lt_sum _ _ (fun w hw => ?_) ⟨v, hv, ?_⟩
  · refine mul_le_mul_of_nonneg_left (by exact_mod_cast hd.1 w hw) (div_nonneg (hp.weight w hw).le (by positivity))
  · refine mul_lt_mul_of_pos_left (by exact_mod_cast hlt) (div_pos (hp.weight v hv) ?_)
    have : 0 < util v B := by omega
    unfold util at this
    have h2 := Finset.card_le_card (Finset.inter_subset_left (s₁ := v.A) (s₂ := B))
    exact_mod_cast lt_of_lt_of_le this h2

theorem av_pareto (hp : p.WF) {k : ℕ} {A : Finset ℕ} (h : SepOpt .av p k A) : ParetoOptimal p A := by
  refine ThieleOpt.pareto (f := marginalFct .av) (marginalFct_pos .av trivial) hp (k := k) ⟨h.1, ?_⟩
  intro B hB
  have := h.2 B hB
  rwa [sum_candScore_av, sum_candScore_av] at this

end

/-! ## Increment completion -/

/-- Three voters, one third of whom approve candidate 2 only. -/
def incrementExample : Profile := ⟨5, [⟨[2], 1⟩, ⟨[1, 3, 4], 1⟩, ⟨[0, 4], 1⟩], []⟩

/-- Equal Shares with increment completion can violate even JR: with the budgets for committee sizes 3 and 4 only the candidates 4 and 2
are elected; with the budget for size 5 candidate 4 is followed by 0 and 1, and the third of the voters that approve only
candidate 2 gets nobody (without completion it does). -/
theorem C37_increment_not_JR :
    computeEqualShares exampleEnv (.ok []) .increment incrementExample { committeesize := 3, resolute := true } = .ok [[0, 1, 4]] ∧
    checkJR incrementExample [0, 1, 4] none = .ok false ∧
    computeEqualShares exampleEnv (.ok []) .none incrementExample { committeesize := 3, resolute := true } = .ok [[2, 4]] := by
  decide +kernel

end Abc
