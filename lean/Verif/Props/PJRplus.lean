import Verif.Props.Guarantees
import Verif.Props.ComputeCheck
import Verif.Props.LeximaxPriceable

/-!
# C125: representation beyond the checks: PJR+, and the core up to a factor of two
-/

namespace Abc

open Spec

section
variable {p : Profile} {W : Finset ℕ} {q : ℚ}

/-- EJR+ implies PJR+. -/
theorem Spec.EJRplus.pjrplus (h : EJRplus p W q) : PJRplus p W q := by
  intro ℓ G c h1 h2 h3 h4
  obtain ⟨i, hi, hs⟩ := h ℓ G c h1 h2 h3 h4
  exact hs.trans (Finset.card_le_card (Finset.inter_subset_inter_right (Finset.subset_biUnion_of_mem (appr p) hi)))

/-- PJR+ implies PJR. -/
theorem Spec.PJRplus.pjr (hq : 0 < q) (h : PJRplus p W q) : PJR p W q := by
  intro ℓ G T hco
  obtain ⟨h1, h2, h3, h4⟩ := hco
  by_cases hTW : T ⊆ W
  · have hGne : G.Nonempty := nonempty_of_wt (lt_of_lt_of_le (mul_pos (by exact_mod_cast h1) hq) h2) le_rfl
    obtain ⟨i, hi⟩ := hGne
    exact h3.trans (Finset.card_le_card fun c hc => Finset.mem_inter.2 ⟨Finset.mem_biUnion.2 ⟨i, hi, h4 i hi hc⟩, hTW hc⟩)
  · obtain ⟨c, hcT, hcW⟩ := Finset.not_subset.1 hTW
    exact h ℓ G c h1 h2 hcW fun i hi => h4 i hi hcT

/-- Priceability implies PJR+. -/
theorem Spec.Priceable.pjrplus (hp : p.WF) (hW : W ⊆ Finset.range p.numCand) (hne : W.Nonempty) (h : Priceable p W) :
    PJRplus p W (total p / W.card) := by
  obtain ⟨b, pay, hps, hc⟩ := h
  intro ℓ G c h1 h2 hcW h4
  by_contra hlt
  rw [not_le] at hlt
  have hk : (0 : ℚ) < W.card := by exact_mod_cast hne.card_pos
  have hcard := PriceSystem.card_le hW hps
  have htot : 0 < total p := by
    rcases (show 0 ≤ total p from Finset.sum_nonneg fun i _ => (weight_pos hp i).le).lt_or_eq with h | h
    · exact h
    · rw [← h] at hcard; linarith
  have hq : 0 < total p / W.card := div_pos htot hk
  have hwt : 0 < wt p G := lt_of_lt_of_le (mul_pos (by exact_mod_cast h1) hq) h2
  obtain ⟨i0, hi0⟩ : G.Nonempty := nonempty_of_wt hwt le_rfl
  have hcn : c < p.numCand := by
    have := h4 i0 hi0
    rw [mem_appr] at this
    exact hp.lt _ (List.get_mem _ _) c this
  have hleft : ∑ i ∈ G, leftAfter p W b pay i ≤ 1 := by
    refine le_trans (Finset.sum_le_sum_of_subset_of_nonneg (fun i hi => ?_) (fun i _ _ => leftAfter_nonneg hW hps i)) (hc c hcn hcW)
    simp only [Finset.mem_filter, Finset.mem_univ, true_and]
    exact h4 i hi
  have hpaid := hps.group_payment G
  have hlt' : ((G.biUnion (appr p) ∩ W).card : ℚ) ≤ ℓ - 1 := by
    have : (G.biUnion (appr p) ∩ W).card + 1 ≤ ℓ := hlt
    have : (((G.biUnion (appr p) ∩ W).card + 1 : ℕ) : ℚ) ≤ ℓ := by exact_mod_cast this
    push_cast at this
    linarith
  have hsum : ∑ i ∈ G, leftAfter p W b pay i = wt p G * b - ∑ i ∈ G, ∑ c ∈ W, pay i c := by
    unfold leftAfter wt
    rw [Finset.sum_sub_distrib, Finset.sum_mul]
  have hb : wt p G * b ≤ ℓ := by linarith
  have h5 : (ℓ : ℚ) * total p ≤ wt p G * W.card := by
    rw [← mul_div_assoc, div_le_iff₀ hk] at h2
    exact h2
  have hℓ : (1 : ℚ) ≤ ℓ := by exact_mod_cast h1
  have he : total p * b = W.card := by
    refine le_antisymm ?_ hcard
    have h6 : wt p G * b * total p ≤ wt p G * W.card := le_trans (mul_le_mul_of_nonneg_right hb htot.le) h5
    have h7 : wt p G * (total p * b) ≤ wt p G * W.card := by linarith
    exact le_of_mul_le_mul_left h7 hwt
  have hzero : ∑ i ∈ G, leftAfter p W b pay i = 0 :=
    Finset.sum_eq_zero fun i _ => PriceSystem.leftAfter_eq_zero hW hps he i
  have h8 : (ℓ : ℚ) ≤ wt p G * b := by
    have : (ℓ : ℚ) * total p ≤ wt p G * b * total p := by rw [← he] at h5; linarith
    exact le_of_mul_le_mul_right this htot
  linarith

/-- What the checks of priceability decide implies PJR+. -/
theorem Spec.PriceableOrFull.pjrplus (hp : p.WF) (hW : W ⊆ Finset.range p.numCand) (hne : W.Nonempty) (ht : 0 < total p)
    (h : PriceableOrFull false p W) : PJRplus p W (total p / W.card) := by
  unfold PriceableOrFull at h
  split at h
  · intro ℓ G c h1 h2 hcW h4
    have hk : (0 : ℚ) < W.card := by exact_mod_cast hne.card_pos
    obtain ⟨i0, hi0⟩ : G.Nonempty :=
      nonempty_of_wt (lt_of_lt_of_le (mul_pos (by exact_mod_cast h1) (div_pos ht hk)) h2) le_rfl
    exact absurd (h (Finset.mem_biUnion.2 ⟨i0, Finset.mem_univ _, h4 i0 hi0⟩)) hcW
  · exact Spec.Priceable.pjrplus hp hW hne (by simpa using h)

/-- What the candidates of `T` would add to the score of PAV, for the voters of a group. -/
theorem gains_group (hp : p.WF) (W T : Finset ℕ) (G : Group p) (hdis : ∀ c ∈ T, c ∉ W) :
    ∑ i ∈ G, (p.voters.get i).weight * ((appr p i ∩ T).card / ((sat p W i : ℚ) + 1)) ≤ ∑ c ∈ T, gain (marginalFct .pav) p W c := by
  have hf := marginalFct_nonneg .pav (by simp)
  set f := marginalFct .pav with hfd
  have h1 : ∀ c ∈ T, ∑ i ∈ G, (if c ∈ (p.voters.get i).A then (p.voters.get i).weight / ((sat p W i : ℚ) + 1) else 0)
      ≤ gain f p W c := by
    intro c hc
    unfold gain
    rw [score_insert f p W c (hdis c hc), voters_sum_fin]
    refine (Finset.sum_le_sum fun i _ => ?_).trans (Finset.sum_le_sum_of_subset_of_nonneg (Finset.subset_univ G) (fun i _ _ => ?_))
    · split
      · rw [util_sat, hfd]
        simp only [marginalFct]
        rw [if_neg (by omega)]
        push_cast
        rw [mul_one_div]
      · exact le_rfl
    · split
      · exact mul_nonneg (weight_pos hp i).le (hf _)
      · exact le_rfl
  refine le_trans (le_of_eq ?_) (Finset.sum_le_sum h1)
  rw [Finset.sum_comm]
  refine Finset.sum_congr rfl fun i _ => ?_
  rw [← Finset.sum_filter, Finset.sum_const, nsmul_eq_mul]
  have : T.filter (fun c => c ∈ (p.voters.get i).A) = appr p i ∩ T := by
    ext c
    rw [Finset.mem_filter, Finset.mem_inter]
    exact and_comm
  rw [this]
  ring

/-- PAV is in the core up to a factor of two (Peters and Skowron 2020). -/
theorem pav_core_two (hp : p.WF) (hv : p.voters ≠ []) {k : ℕ} (hk : 0 < k) (h : ThieleOpt (marginalFct .pav) p k W) :
    CoreUpTo 2 p W (total p / k) := by
  intro G T hG hT
  by_contra hno
  push Not at hno
  have ht := total_pos hp hv
  have hkq : (0 : ℚ) < k := by exact_mod_cast hk
  obtain ⟨i0, hi0⟩ := hG
  have hTpos : 0 < T.card := by
    have h1 := hno i0 hi0
    have h2 := Finset.card_le_card (Finset.inter_subset_right (s₁ := appr p i0) (s₂ := T))
    omega
  set T' := (T \ W).filter (fun c => c < p.numCand) with hT'
  have hsub : T' ⊆ T := (Finset.filter_subset _ _).trans Finset.sdiff_subset
  have hdis : ∀ c ∈ T', c ∉ W := fun c hc => (Finset.mem_sdiff.1 (Finset.mem_filter.1 hc).1).2
  have hge : ∀ i ∈ G, sat p W i + 1 ≤ (appr p i ∩ T').card := by
    intro i hi
    have h1 := hno i hi
    have h2 : appr p i ∩ T ⊆ (appr p i ∩ T') ∪ (appr p i ∩ W) := by
      intro c hc
      obtain ⟨hca, hcT⟩ := Finset.mem_inter.1 hc
      by_cases hcW : c ∈ W
      · exact Finset.mem_union_right _ (Finset.mem_inter.2 ⟨hca, hcW⟩)
      · exact Finset.mem_union_left _ (Finset.mem_inter.2 ⟨hca, Finset.mem_filter.2 ⟨Finset.mem_sdiff.2 ⟨hcT, hcW⟩, appr_lt hp hca⟩⟩)
    have h3 := (Finset.card_le_card h2).trans (Finset.card_union_le _ _)
    have h4 : (appr p i ∩ W).card = sat p W i := rfl
    omega
  have h1 : wt p G ≤ ∑ c ∈ T', gain (marginalFct .pav) p W c := by
    refine le_trans ?_ (gains_group hp W T' G hdis)
    unfold wt
    refine Finset.sum_le_sum fun i hi => ?_
    have h2 : (1 : ℚ) ≤ (appr p i ∩ T').card / ((sat p W i : ℚ) + 1) := by
      rw [le_div_iff₀ (by positivity), one_mul]
      exact_mod_cast hge i hi
    have := mul_le_mul_of_nonneg_left h2 (weight_pos hp i).le
    linarith
  have h2 : ((k : ℚ) + 1) * ∑ c ∈ T', gain (marginalFct .pav) p W c ≤ T.card * total p := by
    rw [Finset.mul_sum]
    refine (Finset.sum_le_card_nsmul _ _ _ fun c hc => pav_gain hp h (Finset.mem_filter.1 hc).2 (hdis c hc)).trans ?_
    rw [nsmul_eq_mul]
    exact mul_le_mul_of_nonneg_right (by exact_mod_cast Finset.card_le_card hsub) ht.le
  have h3 : (T.card : ℚ) * total p ≤ k * wt p G := by
    have := mul_le_mul_of_nonneg_left hT hkq.le
    have e : (k : ℚ) * (T.card * (total p / k)) = T.card * total p := by field_simp
    linarith
  have hwt : 0 < wt p G := by
    have h5 : (0 : ℚ) < T.card * (total p / k) := mul_pos (by exact_mod_cast hTpos) (div_pos ht hkq)
    linarith
  have h4 := mul_le_mul_of_nonneg_left h1 (show (0 : ℚ) ≤ (k : ℚ) + 1 by positivity)
  linarith

end

/-- **C125** PJR+ lies between EJR+ and PJR, and priceability implies it. -/
theorem C125_hierarchy {p : Profile} (hp : p.WF) {W : Finset ℕ} :
    (∀ q, EJRplus p W q → PJRplus p W q) ∧ (∀ q, 0 < q → PJRplus p W q → PJR p W q) ∧
    (W ⊆ Finset.range p.numCand → W.Nonempty → Priceable p W → PJRplus p W (total p / W.card)) :=
  ⟨fun _ h => h.pjrplus, fun _ hq h => h.pjr hq, fun hW hne h => h.pjrplus hp hW hne⟩

/-- **C125** Every committee returned by `seqphragmen`, `maximin-support`, `phragmen-enestroem`, Equal Shares (without completion, completed
by seq-Phragmén or by AV) and `pav` satisfies PJR+, as do those returned by `leximaxphragmen` for moderately large electorates and those
returned by `monroe` and `greedy-monroe` if the committee size divides the number of voters. -/
theorem C125_PJRplus (w : World) (hw : w.Exact) (p : Profile) (hp : p.WF) (a : Args) {ruleId alg : String}
    (hal : prologue w.env ruleId p a = .ok alg) (h : RepresentationRule w p a.k alg ruleId) :
    ∃ cs, compute w ruleId p a.committeesize none a.kw = .ok cs ∧ cs ≠ [] ∧
      ∀ W ∈ cs, PJRplus p W.toFinset (total p / a.k) := by
  have hv := validCall_of_prologue hal
  have ht := total_pos hp hv.voters
  have hfull : ∀ A : Finset ℕ, A ⊆ Finset.range p.numCand → A.card = a.k → PriceableOrFull false p A → PJRplus p A (total p / a.k) := by
    intro A hA hc hP
    have := hv.pos
    have h1 := hP.pjrplus hp hA (Finset.card_pos.1 (by omega)) ht
    rwa [hc] at h1
  have hlt : ∀ {ℓ : ℕ} {G : Group p} {c : ℕ}, 1 ≤ ℓ → (ℓ : ℚ) * (total p / a.k) ≤ wt p G → (∀ i ∈ G, c ∈ appr p i) → c < p.numCand := by
    intro ℓ G c h1 h2 hG
    have hk : (0 : ℚ) < a.k := by exact_mod_cast hv.pos
    obtain ⟨i, hi⟩ := nonempty_of_wt (mul_pos (show (0 : ℚ) < ℓ by exact_mod_cast h1) (div_pos ht hk)) h2
    exact appr_lt hp (hG i hi)
  have hT : ∃ T, Elects w p a.k alg ruleId T ∧ ∀ A, T A → PJRplus p A (total p / a.k) := by
    cases h with
    | extended h =>
      cases h with
      | pav h => exact ⟨_, .thiele (s := .pav) rfl (Or.inl rfl) h, fun A hA => (pav_EJRplus p hp hv.voters a.k hv.pos A hA).pjrplus⟩
      | equalShares h h1 h2 => exact ⟨_, .equalShares h h1 h2, fun A hA => (mesWinner_EJRplus hp hv.voters a.k hv.pos _ A hA).pjrplus⟩
      | equalSharesAv h => exact ⟨_, .equalSharesAv h, fun A hA => (mesWinner_EJRplus hp hv.voters a.k hv.pos _ A hA).pjrplus⟩
      | equalSharesNone h h1 => exact ⟨_, .equalSharesNone h h1, fun A hA => (mesWinner_EJRplus hp hv.voters a.k hv.pos _ A hA).pjrplus⟩
    | seqphragmen h1 h2 =>
      refine ⟨_, .seqphragmen h1 h2, fun A hA => ?_⟩
      have hcom := isCommittee_of_run (p := p) (fun W s c h => ⟨h.1, h.2.1⟩) hA
      exact hfull A hcom.1 hcom.2 (seqphragmen_priceable hp hA)
    | maximinSupport h1 h2 =>
      refine ⟨_, .maximinSupport h1 h2, fun A hA => ?_⟩
      have hval := elects_valid (w := w) (alg := alg) (.maximinSupport h1 h2) hA
      exact hfull A hval.1 (hval.2.2 (by decide)) (maximin_priceable hp hv.pos hA)
    | enestroem h =>
      refine ⟨_, .enestroem h, fun A hA ℓ G c h1 h2 hcA hG => ?_⟩
      exact enestroem_joint hp hv.voters hv.pos hA h1 h2 (hlt h1 h2 hG) hcA hG
    | leximaxphragmen h1 h2 h3 =>
      refine ⟨_, .leximaxphragmen h1 h2, fun A hA ℓ G c g1 g2 hcA hG => ?_⟩
      refine levelWinner_joint hp hv.voters hv.pos (by norm_num) (by norm_num) ?_ (by linarith) hA g1 g2 hcA hG
      have : (0 : ℚ) ≤ p.voters.length * total p := by positivity
      linarith
    | monroe h hd =>
      refine ⟨_, .monroe h, fun A hA ℓ G c h1 h2 hcA hG => ?_⟩
      exact monroe_joint hp hv.voters h hv.pos hd hA h2 (hlt h1 h2 hG) hcA hG
    | greedyMonroe h hd =>
      refine ⟨_, .greedyMonroe h, fun A hA ℓ G c h1 h2 hcA hG => ?_⟩
      exact greedyMonroe_joint hp hv.voters h hv.pos hd hA h2 (hlt h1 h2 hG) hcA hG
  obtain ⟨T, hT, hE⟩ := hT
  obtain ⟨cs, h1, h2, -⟩ := C31_valid w hw p hp a ruleId alg hal hT
  exact ⟨cs, h1, h2, fun W hW => hE _ (answers_mem (C31_compute w hw p hp a ruleId alg hal hT) h1 hW)⟩

/-- **C125** The same for leximax-Phragmén, without tolerances. -/
theorem C125_leximax_PJRplus {p : Profile} (hp : p.WF) (hn : p.voters ≠ []) {k : ℕ} (hk : 0 < k) {A : Finset ℕ}
    (hA : LeximaxPhragmen p k A) : PJRplus p A (total p / k) := by
  have hcom := hA.1
  have := (leximax_priceable hp hn hk hA).pjrplus hp hcom.1 (Finset.card_pos.1 (by rw [hcom.2]; exact hk))
  rwa [hcom.2] at this

/-- **C125** Every committee returned by `pav` is in the core up to a factor of two. -/
theorem C125_pav_core (w : World) (hw : w.Exact) (p : Profile) (hp : p.WF) (a : Args) {alg : String}
    (hal : prologue w.env "pav" p a = .ok alg) (hint : alg = "ortools-cp" → IntegerWeights p) :
    ∃ cs, compute w "pav" p a.committeesize none a.kw = .ok cs ∧ cs ≠ [] ∧
      ∀ W ∈ cs, CoreUpTo 2 p W.toFinset (total p / a.k) := by
  have hv := validCall_of_prologue hal
  have hE : Elects w p a.k alg "pav" _ := .thiele (s := .pav) rfl (Or.inl rfl) hint
  obtain ⟨cs, h1, h2, -⟩ := C31_valid w hw p hp a _ alg hal hE
  exact ⟨cs, h1, h2, fun W hW => pav_core_two hp hv.voters hv.pos (answers_mem (C31_compute w hw p hp a _ alg hal hE) h1 hW)⟩

/-! ## Examples -/

/-- Two voters share six candidates and have one more each; the third voter has six candidates. -/
def sharedSix : Profile := ⟨14, [⟨[0, 1, 2, 3, 4, 5, 6], 1⟩, ⟨[0, 1, 2, 3, 4, 5, 7], 1⟩, ⟨[8, 9, 10, 11, 12, 13], 1⟩], []⟩

/-- Non-vacuity: the hypotheses of C125 hold for concrete calls. -/
example : sharedSix.WF ∧
    prologue exampleEnv "pav" sharedSix { committeesize := 12, resolute := false } = .ok "branch-and-bound" ∧
    prologue exampleEnv "seqphragmen" sharedSix { committeesize := 12, resolute := false, algorithm := "standard-fractions" } =
      .ok "standard-fractions" ∧
    ApproversAtLeastOne sharedSix ∧
    prologue exampleEnv "maximin-support" sharedSix { committeesize := 12, resolute := false, algorithm := "gurobi" } = .ok "gurobi" ∧
    IntegerWeights sharedSix :=
  ⟨⟨by decide, by decide, by decide, by decide⟩, by decide +kernel, by decide +kernel, approversAtLeastOne_of_weights (by decide +kernel),
    by decide +kernel, fun v hv => ⟨1, by revert v; decide +kernel⟩⟩

/-- **C125** Contrast: PAV elects one committee here, in which the first two voters approve six members each; they are two thirds of the
voters and could use their eight seats to approve seven each.  So the factor two cannot be dropped. -/
theorem C125_contrast : thieleBruteforce (marginalFct .pav) sharedSix 12 false none = .ok [[0, 1, 2, 3, 4, 5, 8, 9, 10, 11, 12, 13]] ∧
    ¬ Core sharedSix {0, 1, 2, 3, 4, 5, 8, 9, 10, 11, 12, 13} (total sharedSix / 12) := by
  refine ⟨by decide +kernel, fun h => ?_⟩
  have key : ∀ i ∈ ({(0 : Fin 3), (1 : Fin 3)} : Finset (Fin 3)), ¬ ((appr sharedSix (Fin.cast rfl i) ∩ {0, 1, 2, 3, 4, 5, 6, 7}).card ≤
      sat sharedSix {0, 1, 2, 3, 4, 5, 8, 9, 10, 11, 12, 13} (Fin.cast rfl i)) := by
    decide +kernel
  obtain ⟨i, hi, hs⟩ := h ({(0 : Fin 3), (1 : Fin 3)} : Finset (Fin 3)) {0, 1, 2, 3, 4, 5, 6, 7} ⟨_, Finset.mem_insert_self _ _⟩
    (by decide +kernel)
  exact key i hi hs

end Abc
