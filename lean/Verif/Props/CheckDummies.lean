import Verif.Spec.Dummies
import Verif.Props.CheckElectorate

/-!
# C124: candidates whom nobody approves, and committees of all candidates, in the checks
-/

namespace Abc
open Spec

section
variable {p q : Profile} (hp : p.WF) (h : MoreCandidates p q)
include hp h

theorem more_appr_lt (i : Fin q.voters.length) {c : ℕ} (hc : c ∈ appr q i) : c < p.numCand := by
  obtain ⟨n, vs, nm⟩ := p
  obtain ⟨n', vs', nm'⟩ := q
  obtain ⟨rfl, hn⟩ := h
  exact hp.lt _ (List.get_mem vs' i) c (List.mem_toFinset.1 hc)

theorem pareto_more {W : Finset ℕ} (hW : W ⊆ Finset.range p.numCand) : ParetoOptimal p W ↔ ParetoOptimal q W := by
  have hsub : Finset.range p.numCand ⊆ Finset.range q.numCand := Finset.range_subset_range.2 h.2
  constructor
  · intro hP X hX hd
    obtain ⟨Y, h1, h2, h3⟩ := Finset.exists_subsuperset_card_eq (s := X ∩ Finset.range p.numCand) (t := Finset.range p.numCand) (n := W.card)
      Finset.inter_subset_right ((Finset.card_le_card Finset.inter_subset_left).trans hX.2.le) (Finset.card_le_card hW)
    have hu : ∀ v ∈ p.voters, util v X ≤ util v Y := by
      intro v hv
      refine Finset.card_le_card fun c hc => ?_
      obtain ⟨c1, c2⟩ := Finset.mem_inter.1 hc
      exact Finset.mem_inter.2 ⟨c1, h1 (Finset.mem_inter.2 ⟨c2, Finset.mem_range.2 (hp.lt v hv c (List.mem_toFinset.1 c1))⟩)⟩
    obtain ⟨d1, v, hv, d2⟩ := hd
    rw [h.1] at d1 hv
    exact hP Y ⟨h2, h3⟩ ⟨fun v hv => (d1 v hv).trans (hu v hv), v, hv, d2.trans_le (hu v hv)⟩
  · intro hP X hX hd
    refine hP X ⟨hX.1.trans hsub, hX.2⟩ ?_
    unfold Dominates
    rw [h.1]
    exact hd

omit hp in
theorem approvedSet_more : approvedSet q = approvedSet p := by
  obtain ⟨n, vs, nm⟩ := p
  obtain ⟨n', vs', nm'⟩ := q
  obtain ⟨rfl, hn⟩ := h
  rfl

omit h in
/-- What a voter pays for candidates she does not approve. -/
theorem PriceSystem.zero {W : Finset ℕ} {b : ℚ} {pay : Fin p.voters.length → ℕ → ℚ} (hs : PriceSystem p W b pay) {c : ℕ}
    (hc : p.numCand ≤ c) (i : Fin p.voters.length) : pay i c = 0 := by
  by_contra h0
  exact absurd (hp.lt _ (List.get_mem p.voters i) c (List.mem_toFinset.1 (hs.approved i c h0))) (not_lt.2 hc)

end

theorem priceSystem_more {n n' : ℕ} {vs : List Voter} {nm nm' : List Name} (hp : Profile.WF ⟨n, vs, nm⟩) (hn : n ≤ n') {W : Finset ℕ} {b : ℚ}
    {pay : Fin vs.length → ℕ → ℚ} : PriceSystem ⟨n, vs, nm⟩ W b pay ↔ PriceSystem ⟨n', vs, nm'⟩ W b pay := by
  have hsum : (∀ i c, n ≤ c → pay i c = 0) → ∀ i, ∑ c ∈ Finset.range n', pay i c = ∑ c ∈ Finset.range n, pay i c := by
    intro h0 i
    refine (Finset.sum_subset (Finset.range_subset_range.2 hn) fun c _ hc => h0 i c ?_).symm
    exact not_lt.1 fun h => hc (Finset.mem_range.2 h)
  constructor
  · intro h
    have h0 : ∀ i c, n ≤ c → pay i c = 0 := fun i c hc => PriceSystem.zero hp h hc i
    refine ⟨h.budget_nonneg, h.nonneg, h.approved, fun i => (hsum h0 i).le.trans (h.budget i), h.elected, fun c _ hcW => ?_⟩
    by_cases hc : c < n
    · exact h.other c hc hcW
    · exact Finset.sum_eq_zero fun i _ => h0 i c (not_lt.1 hc)
  · intro h
    have h0 : ∀ i c, n ≤ c → pay i c = 0 := by
      intro i c hc
      by_contra h0
      exact absurd (hp.lt _ (List.get_mem vs i) c (List.mem_toFinset.1 (h.approved i c h0))) (not_lt.2 hc)
    exact ⟨h.budget_nonneg, h.nonneg, h.approved, fun i => (hsum h0 i).ge.trans (h.budget i), h.elected,
      fun c hc hcW => h.other c (hc.trans_le hn) hcW⟩

theorem priceableOrFull_more {n n' : ℕ} {vs : List Voter} {nm nm' : List Name} (hp : Profile.WF ⟨n, vs, nm⟩) (hn : n ≤ n')
    (stable : Bool) (W : Finset ℕ) : PriceableOrFull stable ⟨n, vs, nm⟩ W ↔ PriceableOrFull stable ⟨n', vs, nm'⟩ W := by
  have hall : ∀ {P : ℕ → Prop}, (∀ c, n ≤ c → P c) → ((∀ c, c < n → c ∉ W → P c) ↔ ∀ c, c < n' → c ∉ W → P c) := by
    intro P hP
    refine ⟨fun h c _ hcW => ?_, fun h c hc hcW => h c (hc.trans_le hn) hcW⟩
    by_cases hc : c < n
    · exact h c hc hcW
    · exact hP c (not_lt.1 hc)
  have hnone : ∀ c, n ≤ c → ∀ g : Fin vs.length → ℚ, ∑ i with c ∈ appr ⟨n, vs, nm⟩ i, g i ≤ 1 := by
    intro c hc g
    rw [Finset.filter_false_of_mem (p := fun i => c ∈ appr ⟨n, vs, nm⟩ i) fun i _ hi =>
      absurd (hp.lt _ (List.get_mem vs i) c (List.mem_toFinset.1 hi)) (not_lt.2 hc), Finset.sum_empty]
    exact zero_le_one
  unfold PriceableOrFull
  change (if (approvedSet ⟨n, vs, nm⟩).card < W.card then _ else _) ↔ (if (approvedSet ⟨n, vs, nm⟩).card < W.card then _ else _)
  split_ifs
  · exact Iff.rfl
  · exact exists_congr fun b => exists_congr fun pay => and_congr (priceSystem_more hp hn) (hall fun c hc => hnone c hc _)
  · exact exists_congr fun b => exists_congr fun pay => and_congr (priceSystem_more hp hn) (hall fun c hc => hnone c hc _)

theorem satisfies_more {p q : Profile} (hp : p.WF) (h : MoreCandidates p q) (name : String) {W : Finset ℕ} (hW : W ⊆ Finset.range p.numCand)
    (r : ℚ) : Satisfies name p W r ↔ Satisfies name q W r := by
  have hP := pareto_more hp h hW
  obtain ⟨n, vs, nm⟩ := p
  obtain ⟨n', vs', nm'⟩ := q
  obtain ⟨rfl, hn⟩ := h
  have h1 := priceableOrFull_more (nm' := nm') hp hn false W
  have h2 := priceableOrFull_more (nm' := nm') hp hn true W
  unfold Satisfies
  split_ifs
  · exact hP
  · exact Iff.rfl
  · exact Iff.rfl
  · exact Iff.rfl
  · exact Iff.rfl
  · exact Iff.rfl
  · exact h1
  · exact h2
  · exact Iff.rfl

/-! ### All candidates -/

section
variable {p : Profile} (hp : p.WF)
include hp

theorem appr_inter_all (i : Fin p.voters.length) : appr p i ∩ Finset.range p.numCand = appr p i :=
  Finset.inter_eq_left.2 fun c hc => Finset.mem_range.2 (hp.lt _ (List.get_mem p.voters i) c (List.mem_toFinset.1 hc))

theorem priceable_all {stable : Bool} : PriceableOrFull stable p (Finset.range p.numCand) := by
  have hsub : approvedSet p ⊆ Finset.range p.numCand := by
    intro c hc
    obtain ⟨i, -, hi⟩ := Finset.mem_biUnion.1 hc
    exact Finset.mem_range.2 (hp.lt _ (List.get_mem p.voters i) c (List.mem_toFinset.1 hi))
  unfold PriceableOrFull
  by_cases hc : (approvedSet p).card < (Finset.range p.numCand).card
  · rw [if_pos hc]
    exact hsub
  rw [if_neg hc]
  have hall := Finset.eq_of_subset_of_card_le hsub (not_lt.1 hc)
  have hne : ∀ c < p.numCand, (Finset.univ.filter fun i => c ∈ appr p i).Nonempty := by
    intro c hc
    rw [← Finset.mem_range, ← hall] at hc
    obtain ⟨i, -, hi⟩ := Finset.mem_biUnion.1 hc
    exact ⟨i, Finset.mem_filter.2 ⟨Finset.mem_univ _, hi⟩⟩
  let pay : Fin p.voters.length → ℕ → ℚ := fun i c =>
    if c ∈ appr p i then 1 / (Finset.univ.filter fun i => c ∈ appr p i).card else 0
  have hnn : ∀ i c, 0 ≤ pay i c := fun i c => by
    simp only [pay]
    split_ifs <;> positivity
  have hsn : ∀ i, 0 ≤ ∑ c ∈ Finset.range p.numCand, pay i c := fun i => Finset.sum_nonneg fun c _ => hnn i c
  have hwp : ∀ i : Fin p.voters.length, 0 < (p.voters.get i).weight := fun i => weight_pos hp i
  have hs : PriceSystem p (Finset.range p.numCand) (∑ i, (∑ c ∈ Finset.range p.numCand, pay i c) / (p.voters.get i).weight) pay := by
    refine ⟨Finset.sum_nonneg fun i _ => div_nonneg (hsn i) (hwp i).le, hnn, fun i c h0 => ?_, fun i => ?_, fun c hc => ?_,
      fun c hc hc' => absurd (Finset.mem_range.2 hc) hc'⟩
    · by_contra hca
      exact h0 (if_neg hca)
    · rw [mul_comm, ← div_le_iff₀ (hwp i)]
      exact Finset.single_le_sum (f := fun i => (∑ c ∈ Finset.range p.numCand, pay i c) / (p.voters.get i).weight)
        (fun i _ => div_nonneg (hsn i) (hwp i).le) (Finset.mem_univ i)
    · have h0 : ((Finset.univ.filter fun i => c ∈ appr p i).card : ℚ) ≠ 0 := by
        exact_mod_cast (Finset.card_pos.2 (hne c (Finset.mem_range.1 hc))).ne'
      simp only [pay]
      rw [Finset.sum_ite, Finset.sum_const_zero, add_zero, Finset.sum_const, nsmul_eq_mul, mul_one_div_cancel h0]
  split_ifs
  · exact ⟨_, pay, hs, fun c hc hc' => absurd (Finset.mem_range.2 hc) hc'⟩
  · exact ⟨_, pay, hs, fun c hc hc' => absurd (Finset.mem_range.2 hc) hc'⟩

theorem satisfies_all (name : String) {r : ℚ} (hr : 0 < r) : Satisfies name p (Finset.range p.numCand) r := by
  have hne : ∀ {G : Group p} {ℓ : ℕ}, 1 ≤ ℓ → (ℓ : ℚ) * r ≤ wt p G → G.Nonempty := by
    intro G ℓ hℓ hG
    by_contra h0
    rw [Finset.not_nonempty_iff_eq_empty] at h0
    rw [h0] at hG
    have h1 : (0 : ℚ) < ℓ * r := mul_pos (by exact_mod_cast hℓ) hr
    exact absurd hG (not_le.2 (by simpa [wt] using h1))
  have hcov := appr_inter_all hp
  have hsat : ∀ i, sat p (Finset.range p.numCand) i = (appr p i).card := fun i => by unfold sat; rw [hcov]
  unfold Satisfies
  split_ifs
  · intro X hX hd
    obtain ⟨-, v, hv, hlt⟩ := hd
    exact absurd hlt (not_lt.2 (Finset.card_le_card (Finset.inter_subset_inter_left hX.1)))
  · intro G c hG hc
    obtain ⟨i, hi⟩ := hne (ℓ := 1) le_rfl (by simpa using hG)
    exact ⟨i, hi, c, by rw [hcov]; exact hc i hi⟩
  · rintro ℓ G T ⟨h1, h2, h3, h4⟩
    obtain ⟨i, hi⟩ := hne h1 h2
    refine h3.trans (Finset.card_le_card fun c hc => ?_)
    have := h4 i hi hc
    rw [← hcov] at this
    exact Finset.mem_inter.2 ⟨Finset.mem_biUnion.2 ⟨i, hi, h4 i hi hc⟩, (Finset.mem_inter.1 this).2⟩
  · rintro ℓ G T ⟨h1, h2, h3, h4⟩
    obtain ⟨i, hi⟩ := hne h1 h2
    exact ⟨i, hi, by rw [hsat]; exact h3.trans (Finset.card_le_card (h4 i hi))⟩
  · intro ℓ G c h1 h2 h3 h4
    obtain ⟨i, hi⟩ := hne h1 h2
    have := h4 i hi
    rw [← hcov] at this
    exact absurd (Finset.mem_inter.1 this).2 h3
  · intro G T β hG _ _ h4
    obtain ⟨i, hi⟩ := hG
    exact ⟨i, hi, by rw [hsat]; exact (h4 i hi).trans (Finset.card_le_card Finset.inter_subset_left)⟩
  · exact priceable_all hp
  · exact priceable_all hp
  · intro G T hG _
    obtain ⟨i, hi⟩ := hG
    exact ⟨i, hi, by rw [hsat]; exact Finset.card_le_card Finset.inter_subset_left⟩

end

/-! ## The theorems -/

section
variable {solve solve' : Program → SolveResult} {solveMax solveMax' : MaxProgram → SolveResult} (hs : ExactSolver solve)
  (hs' : ExactSolver solve') (hm : ExactMaxSolver solveMax) (hm' : ExactMaxSolver solveMax') (ap ap' : List ℕ)
  {p q : Profile} (hp : p.WF) (hq : q.WF) {W : List ℕ} (hW : W.Nodup) (hlt : ∀ c ∈ W, c < p.numCand)
  {algorithm algorithm' : String} (ha : algorithm = "fastest" ∨ algorithm = "gurobi") (ha' : algorithm' = "fastest" ∨ algorithm' = "gurobi")
  (h : MoreCandidates p q)

include hs hs' hp hq hW hlt ha ha' h

include hm hm' in
/-- **C124** Additional candidates whom nobody approves do not change the answer of `check` … -/
theorem C124_unapproved_candidates (hv : p.voters ≠ []) (hne : W ≠ []) {name : String} (hn : name ∈ propertyNames) :
    check solve' solveMax' ap' name q (W.map Int.ofNat) none algorithm' = check solve solveMax ap name p (W.map Int.ofNat) none algorithm := by
  obtain ⟨b, h1, h2⟩ := C60_check hs hm ap hp hW hlt ha hv hne hn
  obtain ⟨b', h1', h2'⟩ := C60_check hs' hm' ap' hq hW (fun c hc => (hlt c hc).trans_le h.2) ha' (h.1 ▸ hv) hne hn
  have ht : total q = total p := by
    obtain ⟨n, vs, nm⟩ := p
    obtain ⟨n', vs', nm'⟩ := q
    obtain ⟨rfl, hn⟩ := h
    rfl
  rw [h1, h1']
  rw [ht, ← satisfies_more hp h name (fun c hc => Finset.mem_range.2 (hlt c (List.mem_toFinset.1 hc))), ← h2] at h2'
  rw [Bool.eq_iff_iff.2 h2']

/-- **C124** … also with a given quota. -/
theorem C124_unapproved_quota {r : ℚ} (hr : 0 < r) {name : String} (hn : name ∈ ["jr", "pjr", "ejr", "ejr+", "fjr", "core"])
    (hsat : name = "ejr+" → ∀ i, (sat p W.toFinset i : ℚ) * r ≤ total p) :
    check solve' solveMax' ap' name q (W.map Int.ofNat) (some r) algorithm'
      = check solve solveMax ap name p (W.map Int.ofNat) (some r) algorithm := by
  obtain ⟨b, h1, h2⟩ := check_quota_all (solveMax := solveMax) hs ap hp hW hlt ha (some r) hr hn hsat
  have hsat' : name = "ejr+" → ∀ i, (sat q W.toFinset i : ℚ) * r ≤ total q := by
    obtain ⟨n, vs, nm⟩ := p
    obtain ⟨n', vs', nm'⟩ := q
    obtain ⟨rfl, hn⟩ := h
    exact hsat
  obtain ⟨b', h1', h2'⟩ := check_quota_all (solveMax := solveMax') hs' ap' hq hW (fun c hc => (hlt c hc).trans_le h.2) ha' (some r) hr hn hsat'
  rw [h1, h1']
  change (b' = true ↔ Satisfies name q W.toFinset r) at h2'
  rw [← satisfies_more hp h name (fun c hc => Finset.mem_range.2 (hlt c (List.mem_toFinset.1 hc)))] at h2'
  rw [Bool.eq_iff_iff.2 (h2'.trans h2.symm)]

end

/-- **C124** A committee of all candidates passes every check. -/
theorem C124_all_candidates {solve : Program → SolveResult} {solveMax : MaxProgram → SolveResult} (hs : ExactSolver solve)
    (hm : ExactMaxSolver solveMax) (ap : List ℕ) {p : Profile} (hp : p.WF) {W : List ℕ} (hW : W.Nodup)
    (hall : ∀ c, c ∈ W ↔ c < p.numCand) {algorithm : String} (ha : algorithm = "fastest" ∨ algorithm = "gurobi") (hv : p.voters ≠ [])
    (hne : W ≠ []) {name : String} (hn : name ∈ propertyNames) :
    check solve solveMax ap name p (W.map Int.ofNat) none algorithm = .ok true := by
  obtain ⟨b, h1, h2⟩ := C60_check hs hm ap hp hW (fun c hc => (hall c).1 hc) ha hv hne hn
  rw [h1]
  congr 1
  rw [h2, show W.toFinset = Finset.range p.numCand by ext c; simp [hall]]
  refine satisfies_all hp name (div_pos ?_ ?_)
  · obtain ⟨v, hv⟩ := List.exists_mem_of_ne_nil _ hv
    obtain ⟨i, -⟩ := List.get_of_mem hv
    exact Finset.sum_pos (fun i _ => weight_pos hp i) ⟨i, Finset.mem_univ _⟩
  · exact_mod_cast List.length_pos_of_ne_nil hne

/-- **C124** … also with any positive quota (for `ejr+`: in the range in which the code is right, see C55). -/
theorem C124_all_candidates_quota {solve : Program → SolveResult} {solveMax : MaxProgram → SolveResult} (hs : ExactSolver solve)
    (ap : List ℕ) {p : Profile} (hp : p.WF) {W : List ℕ} (hW : W.Nodup)
    (hall : ∀ c, c ∈ W ↔ c < p.numCand) {algorithm : String} (ha : algorithm = "fastest" ∨ algorithm = "gurobi")
    {r : ℚ} (hr : 0 < r) {name : String} (hn : name ∈ ["jr", "pjr", "ejr", "ejr+", "fjr", "core"])
    (hsat : name = "ejr+" → ∀ i, (sat p W.toFinset i : ℚ) * r ≤ total p) :
    check solve solveMax ap name p (W.map Int.ofNat) (some r) algorithm = .ok true := by
  obtain ⟨b, h1, h2⟩ := check_quota_all (solveMax := solveMax) hs ap hp hW (fun c hc => (hall c).1 hc) ha (some r) hr hn hsat
  rw [h1]
  congr 1
  rw [h2, show W.toFinset = Finset.range p.numCand by ext c; simp [hall]]
  exact satisfies_all hp name hr

/-! ### Examples -/

/-- The hypotheses of `C124_unapproved_candidates` can be met. -/
example (solve : Program → SolveResult) (solveMax : MaxProgram → SolveResult) (hs : ExactSolver solve) (hm : ExactMaxSolver solveMax) :
    check solve solveMax [] "jr" ⟨7, twoGroups.voters, []⟩ ([2, 3].map Int.ofNat) none "gurobi" = .ok false := by
  rw [C124_unapproved_candidates (p := twoGroups) (q := ⟨7, twoGroups.voters, []⟩) (W := [2, 3]) (algorithm := "fastest") hs hs hm hm [] []
    twoGroups_wf ⟨by decide, by decide, by decide, by decide +kernel⟩
    (by decide) (by decide) (Or.inl rfl) (Or.inr rfl) ⟨rfl, by decide⟩ (by decide) (by decide) (by decide)]
  exact (C114_default_quota solve solveMax []).2.1

/-- The hypotheses of `C124_all_candidates` can be met. -/
example (solve : Program → SolveResult) (solveMax : MaxProgram → SolveResult) (hs : ExactSolver solve) (hm : ExactMaxSolver solveMax) :
    check solve solveMax [] "stable-priceability" twoGroups ([2, 0, 3, 1].map Int.ofNat) none "fastest" = .ok true :=
  C124_all_candidates hs hm [] twoGroups_wf (by decide) (fun c => by simp [twoGroups]; omega) (Or.inl rfl) (by decide) (by decide) (by decide)

end Abc
