import Verif.Props.EqualSharesRule

/-!
# C37: EJR+ of Equal Shares.  C39: completion by incrementing the budget
-/

namespace Abc
open Spec

theorem sat_snoc_le (p : Profile) (W : List ℕ) (c : ℕ) (i : Fin p.voters.length) :
    sat p W.toFinset i ≤ sat p (W ++ [c]).toFinset i := by
  unfold sat
  refine Finset.card_le_card (Finset.inter_subset_inter_left ?_)
  intro x hx
  simp at hx ⊢
  exact Or.inr hx

theorem sat_snoc {p : Profile} {W : List ℕ} {c : ℕ} {i : Fin p.voters.length} (hc : c ∉ W) (hi : i ∈ backers p c) :
    sat p (W ++ [c]).toFinset i = sat p W.toFinset i + 1 := by
  unfold sat
  have hci : c ∈ appr p i := mem_appr.2 (mem_backers.1 hi)
  have : appr p i ∩ (W ++ [c]).toFinset = insert c (appr p i ∩ W.toFinset) := by
    ext x
    simp only [Finset.mem_inter, List.mem_toFinset, List.mem_append, List.mem_singleton, Finset.mem_insert]
    constructor
    · rintro ⟨h1, h2 | h2⟩
      · exact Or.inr ⟨h1, h2⟩
      · exact Or.inl h2
    · rintro (rfl | ⟨h1, h2⟩)
      · exact ⟨hci, Or.inr rfl⟩
      · exact ⟨h1, Or.inl h2⟩
  rw [this, Finset.card_insert_of_notMem]
  rw [Finset.mem_inter, List.mem_toFinset]
  exact fun h => hc h.2

/-- While a deserving group is not satisfied, its members keep enough budget. -/
theorem ejrplus_invariant {p : Profile} (hp : p.WF) {r : ℚ} (ℓ : ℕ) (hl : 1 ≤ ℓ) (hr : 0 < r)
    (G : Group p) (hG : (ℓ : ℚ) ≤ r * wt p G) (c : ℕ) (hcm : c < p.numCand) (hGc : ∀ i ∈ G, c ∈ appr p i) {W : List ℕ} {b : VoterMap p}
    (h : MRun p r W b) (hcW : c ∉ W) (hsat : ∀ i ∈ G, sat p W.toFinset i < ℓ) :
    (∀ i ∈ G, (p.voters.get i).weight * (r / ℓ) * (ℓ - sat p W.toFinset i) ≤ b i) ∧ 1 ≤ payments p b c (r / ℓ) := by
  have hlq : (0 : ℚ) < (ℓ : ℚ) := by exact_mod_cast hl
  have pay : ∀ (W : List ℕ) (b : VoterMap p), (∀ i, 0 ≤ b i) → (∀ i ∈ G, sat p W.toFinset i < ℓ) →
      (∀ i ∈ G, (p.voters.get i).weight * (r / ℓ) * (ℓ - sat p W.toFinset i) ≤ b i) → 1 ≤ payments p b c (r / ℓ) := by
    intro W b hb0 hs hb
    have hGb : G ⊆ backers p c := fun i hi => mem_backers.2 (mem_appr.1 (hGc i hi))
    have h1 : ∑ i ∈ G, r / ℓ * (p.voters.get i).weight ≤ ∑ i ∈ G, min (b i) (r / ℓ * (p.voters.get i).weight) := by
      refine Finset.sum_le_sum (fun i hi => le_min ?_ le_rfl)
      refine le_trans ?_ (hb i hi)
      have hs1 : ((sat p W.toFinset i : ℕ) : ℚ) + 1 ≤ ℓ := by exact_mod_cast hs i hi
      have hwp : 0 ≤ (p.voters.get i).weight * (r / ℓ) := mul_nonneg (weight_pos hp i).le (by positivity)
      nlinarith
    have h2 : ∑ i ∈ G, min (b i) (r / ℓ * (p.voters.get i).weight) ≤ payments p b c (r / ℓ) := by
      refine Finset.sum_le_sum_of_subset_of_nonneg hGb (fun i _ _ => le_min (hb0 i) ?_)
      exact mul_nonneg (by positivity) (weight_pos hp i).le
    rw [← Finset.mul_sum] at h1
    change r / ℓ * wt p G ≤ _ at h1
    have h3 : 1 ≤ r / ℓ * wt p G := by
      rw [div_mul_eq_mul_div, le_div_iff₀ hlq]
      linarith
    linarith
  have main : ∀ i ∈ G, (p.voters.get i).weight * (r / ℓ) * (ℓ - sat p W.toFinset i) ≤ b i := by
    induction h with
    | start =>
      intro i _
      have : sat p ([] : List ℕ).toFinset i = 0 := by simp [sat]
      rw [this]
      unfold budgetOf
      rw [Nat.cast_zero, sub_zero, mul_assoc, div_mul_cancel₀ _ hlq.ne']
    | @step W b d hrun hd ih =>
      have hcW' : c ∉ W := fun h => hcW (by simp [h])
      have hsat' : ∀ i ∈ G, sat p W.toFinset i < ℓ := fun i hi => (sat_snoc_le p W d i).trans_lt (hsat i hi)
      have ih := ih hcW' hsat'
      have hb0 := (C36_budgets p hp r hr.le W b hrun).1
      have hpay := pay W b hb0 hsat' ih
      -- the price of `d` is at most `r / ℓ`
      obtain ⟨hdm, hdW, q, hq, hmin⟩ := hd
      have hq' : q ≤ r / ℓ := by
        obtain ⟨qc, hqc⟩ := (exists_price_iff hp b c).2 (hpay.trans (payments_le p b c _))
        refine (hmin c hcm hcW' qc hqc).trans ?_
        by_contra hcon
        have := hqc.2 _ (not_le.1 hcon)
        linarith
      intro i hi
      have hwi := weight_pos hp i
      unfold mesUpd
      split
      · rename_i hid
        rw [sat_snoc hdW hid, price_eq hq]
        have h1 := ih i hi
        have h2 : min (b i) (q * (p.voters.get i).weight) ≤ r / ℓ * (p.voters.get i).weight :=
          (min_le_right _ _).trans (mul_le_mul_of_nonneg_right hq' hwi.le)
        push_cast
        nlinarith
      · refine le_trans ?_ (ih i hi)
        have : ((sat p W.toFinset i : ℕ) : ℚ) ≤ sat p (W ++ [d]).toFinset i := by exact_mod_cast sat_snoc_le p W d i
        have hwp : 0 ≤ (p.voters.get i).weight * (r / ℓ) := mul_nonneg hwi.le (by positivity)
        nlinarith
  exact ⟨main, pay W b (C36_budgets p hp r hr.le W b h).1 hsat main⟩

theorem completed_superset {p : Profile} {k : ℕ} {completion : Completion} {W : List ℕ} {b : VoterMap p} {A : Finset ℕ}
    (h : Completed p k completion W b A) : W.toFinset ⊆ A := by
  unfold Completed at h
  split at h
  · rw [h]
  · obtain ⟨V, x, h1, -, rfl⟩ := h
    intro c hc
    rw [List.mem_toFinset] at hc ⊢
    exact h1.prefix.subset hc
  · exact h.2.1
  · exact absurd h (by simp)

theorem mesWinner_EJRplus {p : Profile} (hp : p.WF) (hne : p.voters ≠ []) (k : ℕ) (hk : 1 ≤ k) (completion : Completion)
    (A : Finset ℕ) (h : MESWinner p k completion (k / total p) A) : EJRplus p A (total p / k) := by
  obtain ⟨W, b, hrun, hfin⟩ := h
  have ht := total_pos hp hne
  have hkq : (0 : ℚ) < (k : ℚ) := by exact_mod_cast hk
  have hr : 0 < (k : ℚ) / total p := by positivity
  have hWA : W.toFinset ⊆ A := by
    rcases hfin with ⟨-, rfl⟩ | ⟨-, -, h⟩
    · exact subset_rfl
    · exact completed_superset h
  intro ℓ G c hl hwt hcA hGc
  by_contra hcon
  push Not at hcon
  have hlq : (0 : ℚ) < (ℓ : ℚ) := by exact_mod_cast hl
  have hsat : ∀ i ∈ G, sat p W.toFinset i < ℓ := by
    intro i hi
    refine lt_of_le_of_lt ?_ (hcon i hi)
    exact Finset.card_le_card (Finset.inter_subset_inter_left hWA)
  have hcW : c ∉ W := fun h => hcA (hWA (by simpa using h))
  obtain ⟨i0, hi0⟩ : G.Nonempty := nonempty_of_wt (x := (ℓ : ℚ) * (total p / k)) (by positivity) hwt
  have hcm : c < p.numCand := appr_lt hp (hGc i0 hi0)
  have hG : (ℓ : ℚ) ≤ k / total p * wt p G := by
    calc (ℓ : ℚ) = k / total p * (ℓ * (total p / k)) := by field_simp
      _ ≤ _ := mul_le_mul_of_nonneg_left hwt hr.le
  obtain ⟨hb, hpay⟩ := ejrplus_invariant hp ℓ hl hr G hG c hcm hGc hrun hcW hsat
  rcases hfin with ⟨hlen, -⟩ | ⟨-, hdone, -⟩
  · obtain ⟨h0, hsum, -⟩ := C36_budgets p hp (k / total p) hr.le W b hrun
    rw [div_mul_cancel₀ _ ht.ne', hlen, sub_self] at hsum
    have hz := (Finset.sum_eq_zero_iff_of_nonneg (fun i _ => h0 i)).1 hsum i0 (Finset.mem_univ _)
    have h1 := hb i0 hi0
    rw [hz] at h1
    have hs1 : ((sat p W.toFinset i0 : ℕ) : ℚ) + 1 ≤ ℓ := by exact_mod_cast hsat i0 hi0
    have hwp : 0 < (p.voters.get i0).weight * (k / total p / ℓ) := mul_pos (weight_pos hp i0) (by positivity)
    nlinarith
  · exact hdone c hcm hcW (hpay.trans (payments_le p b c _))

/-- C37: every committee returned by Equal Shares (exact fractions; without completion, completed by seq-Phragmén or by AV)
satisfies EJR+ and hence EJR and PJR with the Hare quota. -/
theorem C37_equal_shares_EJRplus (env : Env) (float : Except Err (List (List ℕ))) (p : Profile) (hp : p.WF)
    (completion : Completion) (hc : CompletionOk p completion) (a : Args) (rid alg : String) (hid : completion.ruleId = .ok rid)
    (hal : prologue env rid p a = .ok alg) (hex : ExactAlg env alg) (cs : List (List ℕ))
    (hcs : computeEqualShares env float completion p a = .ok cs) :
    ∀ W ∈ cs, EJRplus p W.toFinset (total p / a.k) ∧ EJR p W.toFinset (total p / a.k) ∧ PJR p W.toFinset (total p / a.k) := by
  intro W hW
  have hv := validCall_of_prologue hal
  have hans := C38_equal_shares env float p hp completion hc a rid alg hid hal hex
  have h := mesWinner_EJRplus hp hv.voters a.k hv.pos completion _ (answers_mem hans hcs hW)
  have ht := total_pos hp hv.voters
  have hk : (0 : ℚ) < (a.k : ℚ) := by exact_mod_cast hv.pos
  have h2 : EJR p W.toFinset (total p / a.k) := h.ejr (by positivity)
  exact ⟨h, h2, h2.pjr⟩

/-- Non-vacuity of C35–C38: a profile with ties on which the three variants differ. -/
def mesProfile : Profile := ⟨4, [⟨[0, 1], 1⟩, ⟨[0, 1], 1⟩, ⟨[0], 1⟩, ⟨[2], 3/2⟩, ⟨[3], 1⟩], []⟩

example : mesProfile.WF ∧ ApproversAtLeastOne mesProfile ∧
    prologue exampleEnv "equal-shares" mesProfile { committeesize := 2, algorithm := "standard-fractions", resolute := false }
      = .ok "standard-fractions" ∧
    computeEqualShares exampleEnv (.ok []) .none mesProfile
      { committeesize := 2, algorithm := "standard-fractions", resolute := false } = .ok [[0]] ∧
    computeEqualShares exampleEnv (.ok []) .seqphragmen mesProfile
      { committeesize := 2, algorithm := "standard-fractions", resolute := false } = .ok [[0, 2]] ∧
    computeEqualShares exampleEnv (.ok []) .av mesProfile
      { committeesize := 2, algorithm := "standard-fractions", resolute := false } = .ok [[0, 1]] := by
  refine ⟨⟨by decide, by decide, by decide, by decide +kernel⟩, approversAtLeastOne_of_weights (by decide +kernel), ?_⟩
  decide +kernel

/-! ## C39: incrementing the budget -/

/-- a group's remaining budget -/
theorem group_budget {p : Profile} (hp : p.WF) {r : ℚ} (hr : 0 ≤ r) (G : Group p) {W : List ℕ} {b : VoterMap p}
    (h : MRun p r W b) : r * wt p G - W.length ≤ ∑ i ∈ G, b i := by
  obtain ⟨h1, h2, -⟩ := C36_budgets p hp r hr W b h
  have hub : ∀ i, b i ≤ (p.voters.get i).weight * r := by
    clear h1 h2
    induction h with
    | start => intro i; exact le_rfl
    | @step W b c hrun hc ih =>
      intro i
      refine le_trans ?_ (ih i)
      unfold mesUpd
      split
      · rename_i hi
        obtain ⟨-, -, q, hq, -⟩ := hc
        have hb := (C36_budgets p hp r hr W b hrun).1
        rw [price_eq hq]
        have hq0 : 0 ≤ q := by
          by_contra hneg
          have : payments p b c q ≤ 0 := by
            refine Finset.sum_nonpos (fun i _ => (min_le_right _ _).trans ?_)
            exact mul_nonpos_of_nonpos_of_nonneg (not_le.1 hneg).le (weight_pos hp i).le
          have := hq.1
          linarith
        have : 0 ≤ min (b i) (q * (p.voters.get i).weight) := le_min (hb i) (mul_nonneg hq0 (weight_pos hp i).le)
        linarith
      · exact le_rfl
  have e1 : ∑ i, b i = ∑ i ∈ G, b i + ∑ i ∈ Gᶜ, b i := (Finset.sum_add_sum_compl G b).symm
  have e2 : total p = wt p G + wt p Gᶜ := (Finset.sum_add_sum_compl G (fun i => (p.voters.get i).weight)).symm
  have e3 : ∑ i ∈ Gᶜ, b i ≤ wt p Gᶜ * r := by
    unfold wt
    rw [Finset.sum_mul]
    exact Finset.sum_le_sum (fun i _ => hub i)
  rw [e2] at h2
  linarith

/-- with a budget of `k` per unit of weight, `k` candidates are bought -/
theorem enough_budget {p : Profile} (hp : p.WF) (hw : ApproversAtLeastOne p) (k : ℕ) (r : ℚ) (hr : (k : ℚ) ≤ r)
    (hap : k ≤ p.approvedCandidates.length) {W : List ℕ} {b : VoterMap p} (h : MRun p r W b) (hdone : MESDone p W b) :
    k ≤ W.length := by
  by_contra hcon
  push Not at hcon
  obtain ⟨hn, hl⟩ := approvedCandidates_lists p
  obtain ⟨c, hc, hcW⟩ : ∃ c ∈ p.approvedCandidates, c ∉ W := by
    by_contra hall
    push Not at hall
    have h1 : p.approvedCandidates.toFinset ⊆ W.toFinset := by
      intro c hc
      rw [List.mem_toFinset] at hc ⊢
      exact hall c hc
    have := Finset.card_le_card h1
    rw [List.toFinset_card_of_nodup hn] at this
    have := List.toFinset_card_le W
    omega
  obtain ⟨i, hi⟩ := (hl c).1 hc
  have hcm := appr_lt hp hi
  have hb : i ∈ backers p c := mem_backers.2 (mem_appr.1 hi)
  have h1 := hw c ⟨i, hb⟩
  have hk0 : (0 : ℚ) ≤ k := by positivity
  have h2 := group_budget hp (hk0.trans hr) (backers p c) h
  refine hdone c hcm hcW ?_
  unfold Affordable
  have h3 : (W.length : ℚ) + 1 ≤ k := by exact_mod_cast hcon
  nlinarith

/-- The smallest-index run with budget `r` per unit of weight, continued until `k` candidates are elected or nothing is
affordable, ends with elected candidates `W`. -/
def FirstOutcome (p : Profile) (k : ℕ) (r : ℚ) (W : List ℕ) : Prop :=
  ∃ b, RunFirst (MESBest p) (mesUpd p) [] (budgetOf p r) W b ∧ (W.length = k ∨ (W.length < k ∧ MESDone p W b))

/-- one attempt of the completion by increments -/
theorem incrementStep {p : Profile} (hp : p.WF) (hne : p.voters ≠ []) (k : ℕ) (hk : k ≤ p.numCand) (hk1 : 1 ≤ k) (s : ℕ) (hs : 1 ≤ s) :
    ∃ X W, equalSharesAlgorithm p k true none .none (some ((s : ℚ) / p.totalWeight)) = .ok [X] ∧
      FirstOutcome p k (s / total p) W ∧ X = sortNat W ∧ W.Nodup := by
  have ht := total_pos hp hne
  have hsq : (0 : ℚ) < (s : ℚ) := by exact_mod_cast hs
  have hpos : 0 < (s : ℚ) / total p := by positivity
  obtain ⟨X, W, b, h1, h2, h3, h4⟩ := equalShares_resolute hp hne k hk hk1 .none (Or.inl rfl) ((s : ℚ) / total p) hpos.le none
    (some ((s : ℚ) / total p)) (startBudget_some p k _ hpos.ne')
  have hWn := (mrun_nodup h3.run).1
  have hX : X = sortNat W := by
    refine eq_of_lt_toFinset h2 (sortNat_lt hWn) ?_
    rw [sortNat_toFinset]
    rcases h4 with ⟨-, h⟩ | ⟨-, -, h⟩
    · exact h.symm
    · exact h.completed
  refine ⟨X, W, by rw [totalWeight_eq]; exact h1, ⟨b, h3, ?_⟩, hX, hWn⟩
  rcases h4 with ⟨h, -⟩ | ⟨h, h', -⟩
  · exact Or.inl h
  · exact Or.inr ⟨h, h'⟩

theorem incrementLoop_spec {p : Profile} (hp : p.WF) (hne : p.voters ≠ []) (hw : ApproversAtLeastOne p) (k : ℕ)
    (hk : k ≤ p.numCand) (hk1 : 1 ≤ k) (hap : k ≤ p.approvedCandidates.length) (n : ℕ) (s : ℕ) (hs : 1 ≤ s)
    (hN : (k : ℚ) * total p ≤ (s + n : ℕ)) :
    ∃ inc W, s ≤ inc ∧ FirstOutcome p k (inc / total p) W ∧ W.length = k ∧
      incrementLoop p k (List.range' s (n + 1)) = .ok [sortNat W] ∧
      ∀ j, s ≤ j → j < inc → ∃ V, FirstOutcome p k (j / total p) V ∧ V.length < k := by
  have ht := total_pos hp hne
  have step := incrementStep hp hne k hk hk1
  induction n generalizing s with
  | zero =>
    obtain ⟨X, W, h1, h2, rfl, hWn⟩ := step s hs
    have hlen : W.length = k := by
      obtain ⟨b, hrun, h3⟩ := h2
      rcases h3 with h3 | ⟨h3, h4⟩
      · exact h3
      · have := enough_budget hp hw k (s / total p) (by rw [le_div_iff₀ ht]; simpa using hN) hap hrun.run h4
        omega
    refine ⟨s, W, le_rfl, h2, hlen, ?_, fun j h1 h2 => by omega⟩
    simp only [List.range'_succ, List.range'_zero]
    unfold incrementLoop
    rw [h1]
    simp [bind, Except.bind, sortNat_length, hlen]
  | succ n ih =>
    obtain ⟨X, W, h1, h2, rfl, hWn⟩ := step s hs
    rw [List.range'_succ]
    unfold incrementLoop
    rw [h1]
    simp only [bind, Except.bind]
    by_cases hlen : W.length = k
    · refine ⟨s, W, le_rfl, h2, hlen, ?_, fun j h1 h2 => by omega⟩
      simp [sortNat_length, hlen]
    · have hlt : W.length < k := by
        obtain ⟨b, -, h3⟩ := h2
        rcases h3 with h3 | ⟨h3, -⟩
        · exact absurd h3 hlen
        · exact h3
      obtain ⟨inc, V, g1, g2, g3, g4, g5⟩ := ih (s + 1) (by omega) (by
        have : s + 1 + n = s + (n + 1) := by omega
        rw [this]; exact hN)
      refine ⟨inc, V, by omega, g2, g3, ?_, ?_⟩
      · simp [sortNat_length, hlen]
        exact g4
      · intro j hj1 hj2
        rcases Nat.eq_or_lt_of_le hj1 with rfl | hj
        · exact ⟨W, h2, hlt⟩
        · exact g5 j hj hj2

theorem filter_range_ge (n k : ℕ) : (List.range n).filter (fun i => decide (k ≤ i)) = List.range' k (n - k) := by
  refine List.Perm.eq_of_pairwise (le := (· < ·)) (fun a b _ _ h h' => absurd h (by omega)) ((pairwise_lt_range n).filter _)
    (List.pairwise_lt_range' ) ?_
  rw [List.perm_ext_iff_of_nodup (List.nodup_range.filter _) (List.nodup_range')]
  intro x
  simp only [List.mem_filter, List.mem_range, decide_eq_true_eq, List.mem_range'_1]
  omega

/-- the range of the increments -/
theorem incrementRange_eq {p : Profile} (hp : p.WF) (hw : ApproversAtLeastOne p) (k : ℕ) (hk1 : 1 ≤ k)
    (hle : k ≤ p.approvedCandidates.length) :
    ∃ N, incrementRange p k = List.range' k (N + 1) ∧ (k : ℚ) * total p ≤ ((k + N : ℕ) : ℚ) := by
  obtain ⟨hn, hl⟩ := approvedCandidates_lists p
  -- total weight is at least 1
  have htot : 1 ≤ total p := by
    obtain ⟨c, hc⟩ := List.exists_mem_of_ne_nil p.approvedCandidates (List.ne_nil_of_length_pos (by omega))
    obtain ⟨i, hi⟩ := (hl c).1 hc
    exact (hw c ⟨i, mem_backers.2 (mem_appr.1 hi)⟩).trans (wt_le_total hp _)
  have hkq : (0 : ℚ) < (k : ℚ) := by exact_mod_cast hk1
  have hceil : k ≤ ⌈(k : ℚ) * p.totalWeight⌉.toNat := by
    rw [totalWeight_eq]
    have h1 : (k : ℚ) ≤ (k : ℚ) * total p := le_mul_of_one_le_right hkq.le htot
    have h2 : ((k : ℤ) : ℚ) ≤ (⌈(k : ℚ) * total p⌉ : ℚ) := by
      push_cast
      exact h1.trans (Int.le_ceil _)
    have h3 : (k : ℤ) ≤ ⌈(k : ℚ) * total p⌉ := by exact_mod_cast h2
    omega
  set N := ⌈(k : ℚ) * p.totalWeight⌉.toNat - k with hN
  have hrange : incrementRange p k = List.range' k (N + 1) := by
    unfold incrementRange
    rw [filter_range_ge]
    congr 1
    rw [Int.ceil_add_one]
    omega
  have hNq : (k : ℚ) * total p ≤ ((k + N : ℕ) : ℚ) := by
    have h1 : (k : ℚ) * total p ≤ (⌈(k : ℚ) * total p⌉ : ℚ) := Int.le_ceil _
    have h2 : ((⌈(k : ℚ) * total p⌉ : ℤ) : ℚ) = ((k + N : ℕ) : ℚ) := by
      have : ⌈(k : ℚ) * total p⌉ = ((k + N : ℕ) : ℤ) := by
        rw [← totalWeight_eq]; omega
      rw [this]; norm_cast
    rw [← h2]; exact h1
  exact ⟨N, hrange, hNq⟩

/-- C39: Equal Shares with completion by increments always returns exactly one committee of size `k`: the outcome (with
smallest-index tie-breaking) for the smallest virtual committee size `inc ≥ k` for which `k` candidates are bought.  If fewer
than `k` candidates are approved at all, it returns an AV winner (which contains all approved candidates). -/
theorem C39_increment (env : Env) (float : Except Err (List (List ℕ))) (p : Profile) (hp : p.WF) (hw : ApproversAtLeastOne p)
    (a : Args) (alg : String) (hal : prologue env "equal-shares-with-increment-completion" p a = .ok alg)
    (hex : ExactAlg env alg) :
    (p.approvedCandidates.length < a.k →
      ReturnsOne (computeEqualShares env float .increment p a) (fun A => SepOpt .av p a.k A ∧ ∀ i, appr p i ⊆ A)) ∧
    (a.k ≤ p.approvedCandidates.length → ∃ inc W, a.k ≤ inc ∧ FirstOutcome p a.k (inc / total p) W ∧ W.length = a.k ∧
      computeEqualShares env float .increment p a = .ok [sortNat W] ∧
      ∀ j, a.k ≤ j → j < inc → ∃ V, FirstOutcome p a.k (j / total p) V ∧ V.length < a.k) := by
  have hv := validCall_of_prologue hal
  have ht := total_pos hp hv.voters
  have hcomp : computeEqualShares env float .increment p a
      = equalSharesIncrement env alg float p a.k >>= sortedCommittees := by
    unfold computeEqualShares
    simp only [Completion.ruleId, bind, Except.bind, hal, if_true]
  rw [hcomp]
  obtain ⟨hn, hl⟩ := approvedCandidates_lists p
  constructor
  · intro hlt
    have hv' : ValidCall p { a with resolute := true, max := none } := ⟨hv.pos, hv.le, hv.voters, by simp, by simp⟩
    have hans := separableAlgorithm_answers .av p hp { a with resolute := true, max := none } hv'
    change ReturnsOne (separableAlgorithm .av p a.k true none) (SepOpt .av p a.k) at hans
    obtain ⟨W, e1, e2, e3⟩ := hans
    refine ⟨W, ?_, e2, e3, ?_⟩
    · unfold equalSharesIncrement
      rw [if_pos hlt, e1]
      simp only [bind, Except.bind]
      rw [sortedCommittees_one (nodup_of_lt e2), sortNat_of_lt e2]
    · intro i c hc
      by_contra hcW
      have htop := (sepOpt_iff_topSet .av p a.k _).1 e3
      -- some member of W is not approved by anybody
      obtain ⟨x, hx, hxa⟩ : ∃ x ∈ W.toFinset, x ∉ p.approvedCandidates := by
        by_contra hall
        push Not at hall
        have h1 : W.toFinset ⊆ p.approvedCandidates.toFinset := fun x hx => List.mem_toFinset.2 (hall x hx)
        have := Finset.card_le_card h1
        rw [htop.card, List.toFinset_card_of_nodup hn] at this
        omega
      have h1 := htop.exch x hx (by simp) c (by rw [Finset.mem_range]; exact appr_lt hp hc) hcW
      have hsc : ∀ d, candScore .av p d = wt p (backers p d) := by
        intro d
        unfold candScore wt backers
        rw [voters_map_sum, Finset.sum_filter]
        rfl
      rw [hsc, hsc] at h1
      have hx0 : backers p x = ∅ := by
        rw [Finset.eq_empty_iff_forall_notMem]
        intro j hj
        exact hxa ((hl x).2 ⟨j, mem_appr.2 (mem_backers.1 hj)⟩)
      rw [hx0, wt_empty] at h1
      have := (wt_backers_pos hp c).2 ⟨i, mem_backers.2 (mem_appr.1 hc)⟩
      linarith
  · intro hle
    have hk1 := hv.pos
    obtain ⟨N, hrange, hNq⟩ := incrementRange_eq hp hw a.k hk1 hle
    obtain ⟨inc, W, g1, g2, g3, g4, g5⟩ := incrementLoop_spec hp hv.voters hw a.k hv.le hk1 hle N a.k hk1 hNq
    refine ⟨inc, W, g1, g2, g3, ?_, g5⟩
    unfold equalSharesIncrement
    rw [if_neg (by omega), withFractions_exact hex, hrange, g4]
    simp only [bind, Except.bind]
    obtain ⟨b, hrun, -⟩ := g2
    have hWn := (mrun_nodup hrun.run).1
    rw [sortedCommittees_one (sortNat_nodup.2 hWn), sortNat_of_lt (sortNat_lt hWn)]

/-- C39 (finding): with weights below 1 the "unreachable" RuntimeError is reachable. -/
theorem C39_small_weights_fail :
    let p : Profile := ⟨2, [⟨[0], 1/10⟩, ⟨[1], 1/10⟩], []⟩
    p.WF ∧ computeEqualShares exampleEnv (.ok []) .increment p
      { committeesize := 2, algorithm := "standard-fractions", resolute := true } = .error .runtimeError := by
  refine ⟨⟨by decide, by decide, by decide, by decide +kernel⟩, by decide +kernel⟩

/-- Non-vacuity of C39: both cases. -/
example : prologue exampleEnv "equal-shares-with-increment-completion" mesProfile
      { committeesize := 2, algorithm := "standard-fractions", resolute := true } = .ok "standard-fractions" ∧
    computeEqualShares exampleEnv (.ok []) .increment mesProfile
      { committeesize := 2, algorithm := "standard-fractions", resolute := true } = .ok [[0, 2]] ∧
    computeEqualShares exampleEnv (.ok []) .increment ⟨3, [⟨[2], 1⟩, ⟨[2], 1⟩], []⟩
      { committeesize := 2, algorithm := "standard-fractions", resolute := true } = .ok [[0, 2]] := by
  decide +kernel

end Abc
