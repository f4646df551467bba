import Verif.Props.Check
import Verif.Props.Axioms

/-!
# C58: priceability implies PJR, stable priceability implies the core
-/

namespace Abc

open Spec

section
variable {p : Profile} {W : Finset ℕ} {b : ℚ} {pay : Fin p.voters.length → ℕ → ℚ}

/-- The payments for the committee add up to its size. -/
theorem Spec.PriceSystem.sum_payments (h : PriceSystem p W b pay) : ∑ i, ∑ c ∈ W, pay i c = W.card := by
  rw [Finset.sum_comm, Finset.sum_congr rfl h.elected]
  simp

/-- The voters can pay for the whole committee. -/
theorem Spec.PriceSystem.card_le (hW : W ⊆ Finset.range p.numCand) (h : PriceSystem p W b pay) : (W.card : ℚ) ≤ total p * b := by
  rw [← h.sum_payments]
  unfold total
  rw [Finset.sum_mul]
  refine Finset.sum_le_sum fun i _ => ?_
  have := leftAfter_nonneg hW h i
  unfold leftAfter at this
  linarith

/-- If the voters can pay for the committee exactly, nobody has anything left. -/
theorem Spec.PriceSystem.leftAfter_eq_zero (hW : W ⊆ Finset.range p.numCand) (h : PriceSystem p W b pay) (he : total p * b = W.card)
    (i : Fin p.voters.length) : leftAfter p W b pay i = 0 := by
  have h1 : ∑ i, leftAfter p W b pay i = 0 := by
    unfold leftAfter
    rw [Finset.sum_sub_distrib, h.sum_payments, ← Finset.sum_mul, ← he]
    unfold total
    ring
  exact (Finset.sum_eq_zero_iff_of_nonneg fun i _ => leftAfter_nonneg hW h i).1 h1 i (Finset.mem_univ i)

/-- What a group pays for the committee. -/
theorem Spec.PriceSystem.group_payment (h : PriceSystem p W b pay) (G : Group p) :
    ∑ i ∈ G, ∑ c ∈ W, pay i c ≤ ((G.biUnion (appr p) ∩ W).card : ℚ) := by
  classical
  have h1 : ∀ i ∈ G, ∑ c ∈ W, pay i c = ∑ c ∈ G.biUnion (appr p) ∩ W, pay i c := by
    intro i hi
    symm
    refine Finset.sum_subset Finset.inter_subset_right fun c hc hn => ?_
    by_contra hne
    exact hn (Finset.mem_inter.2 ⟨Finset.mem_biUnion.2 ⟨i, hi, h.approved i c hne⟩, hc⟩)
  rw [Finset.sum_congr rfl h1, Finset.sum_comm, ← nsmul_one, ← Finset.sum_const]
  refine Finset.sum_le_sum fun c hc => ?_
  rw [← h.elected c (Finset.mem_inter.1 hc).2]
  exact Finset.sum_le_univ_sum_of_nonneg fun i => h.nonneg i c

end

/-- Priceability implies PJR (Peters and Skowron 2020). -/
theorem Spec.Priceable.pjr {p : Profile} (hp : p.WF) {W : Finset ℕ} (hW : W ⊆ Finset.range p.numCand) (hne : W.Nonempty)
    (h : Priceable p W) : PJR p W (total p / W.card) := by
  obtain ⟨b, pay, hps, hc⟩ := h
  intro ℓ G T hco
  by_contra hlt
  rw [not_le] at hlt
  obtain ⟨h1, h2, h3, h4⟩ := hco
  have hk : (0 : ℚ) < W.card := by exact_mod_cast hne.card_pos
  have hcard := PriceSystem.card_le hW hps
  have htot : 0 < total p := by
    rcases (show 0 ≤ total p from Finset.sum_nonneg fun i _ => (weight_pos hp i).le).lt_or_eq with h | h
    · exact h
    · rw [← h] at hcard; linarith
  have hq : 0 < total p / W.card := div_pos htot hk
  have hwt : 0 < wt p G := lt_of_lt_of_le (mul_pos (by exact_mod_cast h1) hq) h2
  -- a joint candidate that is not elected
  have hGne : G.Nonempty := nonempty_of_wt hwt le_rfl
  have hTW : ¬ T ⊆ W := by
    intro hsub
    obtain ⟨i, hi⟩ := hGne
    have : T ⊆ G.biUnion (appr p) ∩ W := fun c hcT =>
      Finset.mem_inter.2 ⟨Finset.mem_biUnion.2 ⟨i, hi, h4 i hi hcT⟩, hsub hcT⟩
    have := Finset.card_le_card this
    omega
  obtain ⟨c, hcT, hcW⟩ := Finset.not_subset.1 hTW
  have hcn : c < p.numCand := by
    obtain ⟨i, hi⟩ := hGne
    have := h4 i hi hcT
    rw [mem_appr] at this
    exact hp.lt _ (List.get_mem _ _) c this
  have hleft : ∑ i ∈ G, leftAfter p W b pay i ≤ 1 := by
    refine le_trans (Finset.sum_le_sum_of_subset_of_nonneg (fun i hi => ?_) (fun i _ _ => leftAfter_nonneg hW hps i)) (hc c hcn hcW)
    simp only [Finset.mem_filter, Finset.mem_univ, true_and]
    exact h4 i hi hcT
  have hpaid := hps.group_payment G
  have hlt' : ((G.biUnion (appr p) ∩ W).card : ℚ) ≤ ℓ - 1 := by
    have : (G.biUnion (appr p) ∩ W).card + 1 ≤ ℓ := hlt
    have : (((G.biUnion (appr p) ∩ W).card + 1 : ℕ) : ℚ) ≤ ℓ := by exact_mod_cast this
    push_cast at this
    linarith
  have hsum : ∑ i ∈ G, leftAfter p W b pay i = wt p G * b - ∑ i ∈ G, ∑ c ∈ W, pay i c := by
    unfold leftAfter wt
    rw [Finset.sum_sub_distrib, Finset.sum_mul]
  have hb : wt p G * b ≤ ℓ := by linarith
  have h5 : (ℓ : ℚ) * total p ≤ wt p G * W.card := by
    rw [← mul_div_assoc, div_le_iff₀ hk] at h2
    exact h2
  have hℓ : (1 : ℚ) ≤ ℓ := by exact_mod_cast h1
  -- hence the budget is exactly sufficient
  have hb0 : 0 < b := by
    by_contra hb0
    rw [not_lt] at hb0
    have : total p * b ≤ 0 := mul_nonpos_of_nonneg_of_nonpos htot.le hb0
    linarith
  have he : total p * b = W.card := by
    refine le_antisymm ?_ hcard
    have h6 : wt p G * b * total p ≤ wt p G * W.card := le_trans (mul_le_mul_of_nonneg_right hb htot.le) h5
    have h7 : wt p G * (total p * b) ≤ wt p G * W.card := by linarith
    exact le_of_mul_le_mul_left h7 hwt
  have hzero : ∑ i ∈ G, leftAfter p W b pay i = 0 :=
    Finset.sum_eq_zero fun i _ => PriceSystem.leftAfter_eq_zero hW hps he i
  have h8 : (ℓ : ℚ) ≤ wt p G * b := by
    have : (ℓ : ℚ) * total p ≤ wt p G * b * total p := by rw [← he] at h5; linarith
    exact le_of_mul_le_mul_right this htot
  linarith

/-- Stable priceability implies the core (Peters, Pierczyński, Shah and Skowron 2021). -/
theorem Spec.StablePriceable.core {p : Profile} (hp : p.WF) {W : Finset ℕ} (hW : W ⊆ Finset.range p.numCand) (hne : W.Nonempty)
    (h : StablePriceable p W) : Core p W (total p / W.card) := by
  classical
  obtain ⟨b, pay, hps, hc⟩ := h
  intro G T hGne hT
  by_contra hno
  push Not at hno
  set m : Fin p.voters.length → ℚ := fun i => (insert (leftAfter p W b pay i) (W.image (pay i))).max' (Finset.insert_nonempty _ _) with hm
  have hml : ∀ i, leftAfter p W b pay i ≤ m i := fun i => Finset.le_max' _ _ (Finset.mem_insert_self _ _)
  have hmp : ∀ i, ∀ c ∈ W, pay i c ≤ m i := fun i c hcW =>
    Finset.le_max' _ _ (Finset.mem_insert_of_mem (Finset.mem_image_of_mem _ hcW))
  have hl0 : ∀ i, 0 ≤ leftAfter p W b pay i := fun i => leftAfter_nonneg hW hps i
  have hm0 : ∀ i, 0 ≤ m i := fun i => (hl0 i).trans (hml i)
  have hk : (0 : ℚ) < W.card := by exact_mod_cast hne.card_pos
  have hcard := PriceSystem.card_le hW hps
  have htot : 0 < total p := by
    rcases (show 0 ≤ total p from Finset.sum_nonneg fun i _ => (weight_pos hp i).le).lt_or_eq with h | h
    · exact h
    · rw [← h] at hcard; linarith
  have hwt : 0 < wt p G := Finset.sum_pos (fun i _ => weight_pos hp i) hGne
  -- the payments of the group for `T \ W` could be at most 1 each
  have hA : ∑ i ∈ G, ((appr p i ∩ (T \ W)).card : ℚ) * m i ≤ (T \ W).card := by
    have e1 : ∀ i ∈ G, ((appr p i ∩ (T \ W)).card : ℚ) * m i = ∑ c ∈ T \ W, if c ∈ appr p i then m i else 0 := by
      intro i _
      rw [← Finset.sum_filter, Finset.sum_const, nsmul_eq_mul]
      congr 3
      ext c
      simp only [Finset.mem_inter, Finset.mem_filter]
      tauto
    rw [Finset.sum_congr rfl e1, Finset.sum_comm, ← nsmul_one, ← Finset.sum_const]
    refine Finset.sum_le_sum fun c hcT => ?_
    obtain ⟨hcT, hcW⟩ := Finset.mem_sdiff.1 hcT
    by_cases hcn : c < p.numCand
    · refine le_trans ?_ (hc c hcn hcW)
      rw [Finset.sum_filter]
      refine Finset.sum_le_sum_of_subset_of_nonneg (Finset.subset_univ G) fun i _ _ => ?_
      split
      · exact hm0 i
      · exact le_rfl
    · rw [Finset.sum_eq_zero]
      · exact zero_le_one
      · intro i _
        rw [if_neg]
        intro hca
        rw [mem_appr] at hca
        exact hcn (hp.lt _ (List.get_mem _ _) c hca)
  -- what the group pays for `T ∩ W`
  have hB : ∑ i ∈ G, ∑ c ∈ W ∩ T, pay i c ≤ (W ∩ T).card := by
    rw [Finset.sum_comm, ← nsmul_one, ← Finset.sum_const]
    refine Finset.sum_le_sum fun c hcW => ?_
    rw [← hps.elected c (Finset.mem_inter.1 hcW).1]
    exact Finset.sum_le_univ_sum_of_nonneg fun i => hps.nonneg i c
  -- members of the group could pay for `T \ W` what they have spent for `W \ T` and have left
  have hC : ∀ i ∈ G, ∑ c ∈ W \ T, pay i c + m i ≤ ((appr p i ∩ (T \ W)).card : ℚ) * m i := by
    intro i hi
    have hlt := hno i hi
    unfold sat at hlt
    have d1 : (appr p i ∩ T).card = (appr p i ∩ (T \ W)).card + (appr p i ∩ (W ∩ T)).card := by
      rw [← Finset.card_union_of_disjoint]
      · congr 1
        ext c
        simp only [Finset.mem_inter, Finset.mem_union, Finset.mem_sdiff]
        tauto
      · rw [Finset.disjoint_left]
        intro c h1 h2
        simp only [Finset.mem_inter, Finset.mem_sdiff] at h1 h2
        tauto
    have d2 : (appr p i ∩ W).card = (appr p i ∩ (W \ T)).card + (appr p i ∩ (W ∩ T)).card := by
      rw [← Finset.card_union_of_disjoint]
      · congr 1
        ext c
        simp only [Finset.mem_inter, Finset.mem_union, Finset.mem_sdiff]
        tauto
      · rw [Finset.disjoint_left]
        intro c h1 h2
        simp only [Finset.mem_inter, Finset.mem_sdiff] at h1 h2
        tauto
    have d3 : (appr p i ∩ (W \ T)).card + 1 ≤ (appr p i ∩ (T \ W)).card := by omega
    have d4 : ∑ c ∈ W \ T, pay i c ≤ ((appr p i ∩ (W \ T)).card : ℚ) * m i := by
      rw [← nsmul_eq_mul, ← Finset.sum_const]
      rw [← Finset.sum_subset (Finset.inter_subset_right (s₁ := appr p i)) (f := pay i)]
      · exact Finset.sum_le_sum fun c hcm => hmp i c (Finset.mem_sdiff.1 (Finset.mem_inter.1 hcm).2).1
      · intro c hcm hn
        by_contra hne
        exact hn (Finset.mem_inter.2 ⟨hps.approved i c hne, hcm⟩)
    have d5 : (((appr p i ∩ (W \ T)).card : ℚ) + 1) * m i ≤ ((appr p i ∩ (T \ W)).card : ℚ) * m i :=
      mul_le_mul_of_nonneg_right (by exact_mod_cast d3) (hm0 i)
    linarith
  have hD : ∀ i, (p.voters.get i).weight * b = leftAfter p W b pay i + ∑ c ∈ W \ T, pay i c + ∑ c ∈ W ∩ T, pay i c := by
    intro i
    have e : ∑ c ∈ W, pay i c = ∑ c ∈ W \ T, pay i c + ∑ c ∈ W ∩ T, pay i c := by
      rw [← Finset.sum_union]
      · congr 1
        ext c
        simp only [Finset.mem_inter, Finset.mem_union, Finset.mem_sdiff]
        tauto
      · rw [Finset.disjoint_left]
        intro c h1 h2
        simp only [Finset.mem_inter, Finset.mem_sdiff] at h1 h2
        tauto
    unfold leftAfter
    rw [e]
    ring
  have hE : wt p G * b = ∑ i ∈ G, (leftAfter p W b pay i + ∑ c ∈ W \ T, pay i c) + ∑ i ∈ G, ∑ c ∈ W ∩ T, pay i c := by
    rw [← Finset.sum_add_distrib]
    unfold wt
    rw [Finset.sum_mul]
    exact Finset.sum_congr rfl fun i _ => hD i
  have hTcard : (T.card : ℚ) = (T \ W).card + (W ∩ T).card := by
    have : T.card = (T \ W).card + (W ∩ T).card := by
      rw [Finset.inter_comm, Finset.card_sdiff_add_card_inter]
    exact_mod_cast this
  have h5 : (T.card : ℚ) * total p ≤ wt p G * W.card := by
    rw [← mul_div_assoc, div_le_iff₀ hk] at hT
    exact hT
  by_cases he : total p * b = W.card
  · -- everything is spent
    have hz := fun i => PriceSystem.leftAfter_eq_zero hW hps he i
    have hb : 0 < b := by
      by_contra hb0
      rw [not_lt] at hb0
      have : total p * b ≤ 0 := mul_nonpos_of_nonneg_of_nonpos htot.le hb0
      linarith
    have hmpos : ∀ i, 0 < m i := by
      intro i
      rcases (hm0 i).lt_or_eq with h | h
      · exact h
      · exfalso
        have h1 : ∑ c ∈ W, pay i c = 0 := Finset.sum_eq_zero fun c hcW =>
          le_antisymm (by rw [h]; exact hmp i c hcW) (hps.nonneg i c)
        have h2 := hz i
        unfold leftAfter at h2
        have := mul_pos (weight_pos hp i) hb
        linarith
    have hF : ∑ i ∈ G, (leftAfter p W b pay i + ∑ c ∈ W \ T, pay i c) < ∑ i ∈ G, ((appr p i ∩ (T \ W)).card : ℚ) * m i := by
      refine Finset.sum_lt_sum_of_nonempty hGne fun i hi => ?_
      have := hC i hi
      have := hmpos i
      rw [hz i]
      linarith
    have h6 : wt p G * b < T.card := by rw [hTcard]; linarith
    have h7 : wt p G * b * total p < wt p G * W.card := lt_of_lt_of_le (mul_lt_mul_of_pos_right h6 htot) h5
    rw [← he] at h7
    linarith
  · have hgt : (W.card : ℚ) < total p * b := lt_of_le_of_ne hcard (Ne.symm he)
    have hF : ∑ i ∈ G, (leftAfter p W b pay i + ∑ c ∈ W \ T, pay i c) ≤ ∑ i ∈ G, ((appr p i ∩ (T \ W)).card : ℚ) * m i := by
      refine Finset.sum_le_sum fun i hi => ?_
      have := hC i hi
      have := hml i
      linarith
    have h6 : wt p G * b ≤ T.card := by rw [hTcard]; linarith
    have h7 : wt p G * b * total p ≤ wt p G * W.card := le_trans (mul_le_mul_of_nonneg_right h6 htot.le) h5
    have h8 : wt p G * W.card < wt p G * (total p * b) := mul_lt_mul_of_pos_left hgt hwt
    linarith

/-- A committee that contains all approved candidates is in the core. -/
theorem core_of_full {p : Profile} {W : Finset ℕ} (h : approvedSet p ⊆ W) (q : ℚ) : Core p W q := by
  intro G T hG _
  obtain ⟨i, hi⟩ := hG
  refine ⟨i, hi, Finset.card_le_card ?_⟩
  intro c hc
  refine Finset.mem_inter.2 ⟨(Finset.mem_inter.1 hc).1, h ?_⟩
  exact Finset.mem_biUnion.2 ⟨i, Finset.mem_univ i, (Finset.mem_inter.1 hc).1⟩

/-- The implications between the properties known to `check`. -/
def Spec.implications : List (String × String) :=
  [("stable-priceability", "priceability"), ("stable-priceability", "core"), ("core", "fjr"), ("fjr", "ejr"), ("ejr+", "ejr"), ("ejr", "pjr"),
    ("priceability", "pjr"), ("pjr", "jr")]

theorem satisfies_implies {p : Profile} (hp : p.WF) {W : Finset ℕ} (hW : W ⊆ Finset.range p.numCand) (hne : W.Nonempty)
    (hv : p.voters ≠ []) {n n' : String} (h : (n, n') ∈ implications) (hs : Satisfies n p W (total p / W.card)) :
    Satisfies n' p W (total p / W.card) := by
  have hq : 0 < total p / W.card := div_pos (total_pos hp hv) (by exact_mod_cast hne.card_pos)
  simp only [implications, List.mem_cons, List.not_mem_nil, or_false, Prod.mk.injEq] at h
  rcases h with ⟨rfl, rfl⟩ | ⟨rfl, rfl⟩ | ⟨rfl, rfl⟩ | ⟨rfl, rfl⟩ | ⟨rfl, rfl⟩ | ⟨rfl, rfl⟩ | ⟨rfl, rfl⟩ | ⟨rfl, rfl⟩
  · change PriceableOrFull true p W at hs
    change PriceableOrFull false p W
    unfold PriceableOrFull at hs ⊢
    split at hs
    · rw [if_pos (by assumption)]; exact hs
    · rw [if_neg (by assumption)]; exact C69_stable_priceable hs
  · change PriceableOrFull true p W at hs
    change Core p W _
    unfold PriceableOrFull at hs
    split at hs
    · exact core_of_full hs _
    · exact StablePriceable.core hp hW hne hs
  · exact Core.fjr hs
  · exact FJR.ejr hq hs
  · exact EJRplus.ejr hq hs
  · exact EJR.pjr hs
  · change PriceableOrFull false p W at hs
    change PJR p W _
    unfold PriceableOrFull at hs
    split at hs
    · exact ((core_of_full hs _).fjr.ejr hq).pjr
    · exact Priceable.pjr hp hW hne hs
  · exact PJR.jr hs

/-- **C58** If `check` (Gurobi, default quota) answers `True` for a property, it answers `True` for every weaker property: stable
priceability ⟹ core ⟹ FJR ⟹ EJR ⟹ PJR ⟹ JR, EJR+ ⟹ EJR, stable priceability ⟹ priceability ⟹ PJR. -/
theorem C58_check {solve : Program → SolveResult} {solveMax : MaxProgram → SolveResult} (hs : ExactSolver solve)
    (hm : ExactMaxSolver solveMax) (ap : List ℕ) {p : Profile} (hp : p.WF) {W : List ℕ} (hW : W.Nodup) (hlt : ∀ c ∈ W, c < p.numCand)
    {algorithm : String} (ha : algorithm = "fastest" ∨ algorithm = "gurobi") (hv : p.voters ≠ []) (hne : W ≠ []) {n n' : String}
    (himp : (n, n') ∈ implications) (h : check solve solveMax ap n p (W.map Int.ofNat) none algorithm = .ok true) :
    check solve solveMax ap n' p (W.map Int.ofNat) none algorithm = .ok true := by
  have hn : n ∈ propertyNames ∧ n' ∈ propertyNames := by
    have : ∀ e ∈ implications, e.1 ∈ propertyNames ∧ e.2 ∈ propertyNames := by decide
    exact this _ himp
  obtain ⟨b, h1, h2⟩ := C60_check hs hm ap hp hW hlt ha hv hne hn.1
  obtain ⟨b', h1', h2'⟩ := C60_check hs hm ap hp hW hlt ha hv hne hn.2
  rw [h1] at h
  obtain rfl := Except.ok.inj h
  have hcard : W.toFinset.card = W.length := List.toFinset_card_of_nodup hW
  have h3 := h2.1 rfl
  rw [← hcard] at h3 h2'
  rw [h1', h2'.2 (satisfies_implies hp (fun c hc => Finset.mem_range.2 (hlt c (List.mem_toFinset.1 hc)))
    (by rwa [List.toFinset_nonempty_iff]) hv himp h3)]

/-! ### Example -/

/-- Two voters; the committee {0, 1} has a stable price system. -/
def priceExample : Profile := ⟨3, [⟨[0, 2], 1⟩, ⟨[1], 1⟩], []⟩

theorem priceExample_stable : StablePriceable priceExample {0, 1} := by
  refine ⟨1, fun i c => if c = (i : ℕ) then 1 else 0, ⟨by norm_num, ?_, ?_, ?_, ?_, ?_⟩, ?_⟩
  · intro i c; split <;> norm_num
  · intro i c h
    have : c = (i : ℕ) := by by_contra hne; exact h (if_neg hne)
    subst this
    clear h
    revert i
    decide +kernel
  · decide +kernel
  · decide +kernel
  · change ∀ c < 3, _
    decide +kernel
  · change ∀ c < 3, _
    decide +kernel

example : ∃ (solve : Program → SolveResult) (solveMax : MaxProgram → SolveResult),
    check solve solveMax [] "stable-priceability" priceExample [0, 1] none "fastest" = .ok true ∧
    check solve solveMax [] "core" priceExample [0, 1] none "fastest" = .ok true := by
  obtain ⟨solve, hs⟩ := exists_exactSolver
  obtain ⟨solveMax, hm⟩ := exists_exactMaxSolver
  have hwf : priceExample.WF := ⟨by decide, by decide, by decide, by
    intro v hv; simp [priceExample] at hv; rcases hv with rfl | rfl <;> norm_num⟩
  have h : check solve solveMax [] "stable-priceability" priceExample [0, 1] none "fastest" = .ok true := by
    obtain ⟨b, h1, h2⟩ := C60_check hs hm [] hwf (W := [0, 1]) (by decide) (by decide) (Or.inl rfl) (by decide) (by decide)
      (name := "stable-priceability") (by decide)
    refine h1.trans ?_
    rw [h2.2]
    change PriceableOrFull true priceExample {0, 1}
    unfold PriceableOrFull
    rw [if_neg (by decide +kernel), if_pos rfl]
    exact priceExample_stable
  exact ⟨solve, solveMax, h, C58_check hs hm [] hwf (W := [0, 1]) (by decide) (by decide) (Or.inl rfl) (by decide) (by decide)
    (n := "stable-priceability") (by decide) h⟩

end Abc
