import Verif.Props.Check
import Verif.Props.Ballots

/-!
# C113, C114: larger quotas and larger committees; only the total weight of every ballot matters to `check`
-/

namespace Abc
open Spec

set_option linter.unusedSectionVars false

/-! ## C113: monotonicity in the quota and in the committee -/

section
variable {p : Profile} {W W' : Finset ℕ} (hWW : W ⊆ W') {q q' : ℚ} (hqq : q ≤ q')

include hWW

theorem sat_mono (i : Fin p.voters.length) : sat p W i ≤ sat p W' i := Finset.card_le_card (Finset.inter_subset_inter_left hWW)

include hqq

theorem cohesive_anti {ℓ : ℕ} {G : Group p} {T : Finset ℕ} (h : Cohesive p q' ℓ G T) : Cohesive p q ℓ G T :=
  ⟨h.1, (mul_le_mul_of_nonneg_left hqq (Nat.cast_nonneg _)).trans h.2.1, h.2.2⟩

theorem Spec.JR.mono (h : JR p W q) : JR p W' q' := fun G c hG hc => by
  obtain ⟨i, hi, x, hx⟩ := h G c (hqq.trans hG) hc
  exact ⟨i, hi, x, Finset.inter_subset_inter_left hWW hx⟩

theorem Spec.PJR.mono (h : PJR p W q) : PJR p W' q' := fun ℓ G T hG =>
  (h ℓ G T (cohesive_anti hWW hqq hG)).trans (Finset.card_le_card (Finset.inter_subset_inter_left hWW))

theorem Spec.EJR.mono (h : EJR p W q) : EJR p W' q' := fun ℓ G T hG => by
  obtain ⟨i, hi, hl⟩ := h ℓ G T (cohesive_anti hWW hqq hG)
  exact ⟨i, hi, hl.trans (sat_mono hWW i)⟩

theorem ejrplus_mono (h : EJRplus p W q) : EJRplus p W' q' := fun ℓ G c hl hG hc ha => by
  obtain ⟨i, hi, hs⟩ := h ℓ G c hl ((mul_le_mul_of_nonneg_left hqq (Nat.cast_nonneg _)).trans hG) (fun e => hc (hWW e)) ha
  exact ⟨i, hi, hs.trans (sat_mono hWW i)⟩

theorem Spec.FJR.mono (h : FJR p W q) : FJR p W' q' := fun G T β hne hβ hG ha => by
  obtain ⟨i, hi, hs⟩ := h G T β hne hβ ((mul_le_mul_of_nonneg_left hqq (Nat.cast_nonneg _)).trans hG) ha
  exact ⟨i, hi, hs.trans (sat_mono hWW i)⟩

theorem Spec.Core.mono (h : Core p W q) : Core p W' q' := fun G T hne hG => by
  obtain ⟨i, hi, hs⟩ := h G T hne ((mul_le_mul_of_nonneg_left hqq (Nat.cast_nonneg _)).trans hG)
  exact ⟨i, hi, hs.trans (sat_mono hWW i)⟩

theorem satisfies_mono {name : String} (hn : name ∈ ["jr", "pjr", "ejr", "ejr+", "fjr", "core"]) (h : Satisfies name p W q) :
    Satisfies name p W' q' := by
  simp only [List.mem_cons, List.not_mem_nil, or_false] at hn
  rcases hn with rfl | rfl | rfl | rfl | rfl | rfl
  · exact Spec.JR.mono hWW hqq h
  · exact Spec.PJR.mono hWW hqq h
  · exact Spec.EJR.mono hWW hqq h
  · exact ejrplus_mono hWW hqq h
  · exact Spec.FJR.mono hWW hqq h
  · exact Spec.Core.mono hWW hqq h

end

/-- What `check` decides for the properties that take a quota, including EJR+. -/
theorem check_quota_all {solve : Program → SolveResult} {solveMax : MaxProgram → SolveResult} (hs : ExactSolver solve) (ap : List ℕ)
    {p : Profile} (hp : p.WF) {W : List ℕ} (hW : W.Nodup) (hlt : ∀ c ∈ W, c < p.numCand) {algorithm : String}
    (ha : algorithm = "fastest" ∨ algorithm = "gurobi") (quota : Option ℚ) (hq : 0 < quotaValue p W.length quota) {name : String}
    (hn : name ∈ ["jr", "pjr", "ejr", "ejr+", "fjr", "core"])
    (hsat : name = "ejr+" → ∀ i, (sat p W.toFinset i : ℚ) * quotaValue p W.length quota ≤ total p) :
    ∃ b, check solve solveMax ap name p (W.map Int.ofNat) quota algorithm = .ok b ∧
      (b = true ↔ Satisfies name p W.toFinset (quotaValue p W.length quota)) := by
  by_cases h : name = "ejr+"
  · subst h
    exact C55_check_EJR_plus p hp W hW hlt quota hq (hsat rfl)
  · refine C60_check_quota hs ap hp hW hlt ha quota hq ?_
    simp only [List.mem_cons, List.not_mem_nil, or_false] at hn ⊢
    tauto

/-- **C113** A committee that passes `check` for JR, PJR, EJR, EJR+, FJR or the core passes it for every larger quota, too, and so does
every larger committee (if the quota in force is not smaller).  For EJR+ the larger quota has to be in the range in which the code is
right (see C55). -/
theorem C113_check_monotone {solve solve' : Program → SolveResult} {solveMax solveMax' : MaxProgram → SolveResult}
    (hs : ExactSolver solve) (hs' : ExactSolver solve') (ap ap' : List ℕ)
    {p : Profile} (hp : p.WF) {W W' : List ℕ} (hW : W.Nodup) (hW' : W'.Nodup) (hsub : ∀ c ∈ W, c ∈ W') (hlt : ∀ c ∈ W', c < p.numCand)
    {algorithm algorithm' : String} (ha : algorithm = "fastest" ∨ algorithm = "gurobi") (ha' : algorithm' = "fastest" ∨ algorithm' = "gurobi")
    {quota quota' : Option ℚ} (hq : 0 < quotaValue p W.length quota) (hqq : quotaValue p W.length quota ≤ quotaValue p W'.length quota')
    {name : String} (hn : name ∈ ["jr", "pjr", "ejr", "ejr+", "fjr", "core"])
    (hsat : name = "ejr+" → ∀ v ∈ p.voters, ((v.A ∩ W'.toFinset).card : ℚ) * quotaValue p W'.length quota' ≤ total p)
    (h : check solve solveMax ap name p (W.map Int.ofNat) quota algorithm = .ok true) :
    check solve' solveMax' ap' name p (W'.map Int.ofNat) quota' algorithm' = .ok true := by
  have hWW : W.toFinset ⊆ W'.toFinset := fun c hc => List.mem_toFinset.2 (hsub c (List.mem_toFinset.1 hc))
  have hsat' : name = "ejr+" → ∀ i, (sat p W'.toFinset i : ℚ) * quotaValue p W'.length quota' ≤ total p :=
    fun e i => hsat e _ (List.get_mem p.voters i)
  obtain ⟨b, h1, h2⟩ := check_quota_all (solveMax := solveMax) hs ap hp hW (fun c hc => hlt c (hsub c hc)) ha quota hq hn (fun e i =>
    (mul_le_mul (by exact_mod_cast sat_mono hWW i) hqq hq.le (Nat.cast_nonneg _)).trans (hsat' e i))
  obtain ⟨b', h1', h2'⟩ := check_quota_all (solveMax := solveMax') hs' ap' hp hW' hlt ha' quota' (hq.trans_le hqq) hn hsat'
  rw [h1] at h
  obtain rfl := Except.ok.inj h
  rw [h1', h2'.2 (satisfies_mono hWW hqq hn (h2.1 rfl))]

/-! ## C114: only the total weight of every ballot matters -/

section
variable {p p' : Profile} (h : SameBallots p p') (hp : p.WF) (hp' : p'.WF)

/-- The voters of `p'` whose ballot occurs in the group `G` of voters of `p`. -/
def copyGroup (p' : Profile) (G : Group p) : Group p' := Finset.univ.filter fun i => appr p' i ∈ G.image (appr p)

theorem mem_copyGroup {G : Group p} {i : Fin p'.voters.length} : i ∈ copyGroup p' G ↔ ∃ j ∈ G, appr p j = appr p' i := by
  simp [copyGroup]

include h

theorem wt_copyGroup (hp : p.WF) {G : Group p} (hG : ∀ i ∈ G, appr p i ≠ ∅) : wt p G ≤ wt p' (copyGroup p' G) := by
  have hne : ∅ ∉ G.image (appr p) := by
    simp only [Finset.mem_image, not_exists, not_and]
    exact fun i hi => hG i hi
  have := sum_fin h (fun A => if A ∈ G.image (appr p) then 1 else 0) (if_neg hne)
  simp only [mul_ite, mul_one, mul_zero] at this
  rw [← Finset.sum_filter, ← Finset.sum_filter] at this
  unfold copyGroup wt
  rw [← this]
  refine Finset.sum_le_sum_of_subset_of_nonneg (fun i hi => ?_) fun i _ _ => (weight_pos hp i).le
  exact Finset.mem_filter.2 ⟨Finset.mem_univ _, Finset.mem_image_of_mem _ hi⟩

include hp hp'

theorem exists_copy {i : Fin p.voters.length} (hi : appr p i ≠ ∅) : ∃ j, appr p' j = appr p i := by
  have h1 := (electorate_pos hp (appr p i)).2 ⟨_, List.get_mem _ i, rfl⟩
  rw [h.2 _ hi, electorate_pos hp'] at h1
  obtain ⟨v, hv, e⟩ := h1
  obtain ⟨j, rfl⟩ := List.get_of_mem hv
  exact ⟨j, e⟩

theorem jr_ballots {W : Finset ℕ} {q : ℚ} (hJ : JR p' W q) : JR p W q := fun G c hG hc => by
  have hne : ∀ i ∈ G, appr p i ≠ ∅ := fun i hi e => by have := hc i hi; simp [e] at this
  obtain ⟨i, hi, hx⟩ := hJ (copyGroup p' G) c (hG.trans (wt_copyGroup h hp hne)) fun i hi => by
    obtain ⟨j, hj, e⟩ := mem_copyGroup.1 hi
    rw [← e]; exact hc j hj
  obtain ⟨j, hj, e⟩ := mem_copyGroup.1 hi
  exact ⟨j, hj, by rw [e]; exact hx⟩

theorem cohesive_ballots {q : ℚ} {ℓ : ℕ} {G : Group p} {T : Finset ℕ} (hG : Cohesive p q ℓ G T) :
    Cohesive p' q ℓ (copyGroup p' G) T := by
  have hne : ∀ i ∈ G, appr p i ≠ ∅ := fun i hi e => by
    have h1 := hG.2.2.2 i hi
    rw [e, Finset.subset_empty] at h1
    have h2 := hG.2.2.1
    rw [h1] at h2
    have := hG.1
    simp at h2
    omega
  refine ⟨hG.1, hG.2.1.trans (wt_copyGroup h hp hne), hG.2.2.1, fun i hi => ?_⟩
  obtain ⟨j, hj, e⟩ := mem_copyGroup.1 hi
  rw [← e]; exact hG.2.2.2 j hj

theorem pjr_ballots {W : Finset ℕ} {q : ℚ} (hJ : PJR p' W q) : PJR p W q := fun ℓ G T hG => by
  refine (hJ ℓ _ T (cohesive_ballots h hp hp' hG)).trans (Finset.card_le_card (Finset.inter_subset_inter_right ?_))
  intro x hx
  obtain ⟨i, hi, hxi⟩ := Finset.mem_biUnion.1 hx
  obtain ⟨j, hj, e⟩ := mem_copyGroup.1 hi
  exact Finset.mem_biUnion.2 ⟨j, hj, by rw [e]; exact hxi⟩

theorem ejr_ballots {W : Finset ℕ} {q : ℚ} (hJ : EJR p' W q) : EJR p W q := fun ℓ G T hG => by
  obtain ⟨i, hi, hx⟩ := hJ ℓ _ T (cohesive_ballots h hp hp' hG)
  obtain ⟨j, hj, e⟩ := mem_copyGroup.1 hi
  exact ⟨j, hj, by unfold sat at hx ⊢; rw [e]; exact hx⟩

theorem ejrplus_ballots {W : Finset ℕ} {q : ℚ} (hJ : EJRplus p' W q) : EJRplus p W q := fun ℓ G c hl hG hcW hc => by
  have hne : ∀ i ∈ G, appr p i ≠ ∅ := fun i hi e => by have := hc i hi; simp [e] at this
  obtain ⟨i, hi, hx⟩ := hJ ℓ (copyGroup p' G) c hl (hG.trans (wt_copyGroup h hp hne)) hcW fun i hi => by
    obtain ⟨j, hj, e⟩ := mem_copyGroup.1 hi
    rw [← e]; exact hc j hj
  obtain ⟨j, hj, e⟩ := mem_copyGroup.1 hi
  exact ⟨j, hj, by unfold sat at hx ⊢; rw [e]; exact hx⟩

theorem copyGroup_nonempty {G : Group p} (hG : G.Nonempty) (hne : ∀ i ∈ G, appr p i ≠ ∅) : (copyGroup p' G).Nonempty := by
  obtain ⟨i, hi⟩ := hG
  obtain ⟨j, hj⟩ := exists_copy h hp hp' (hne i hi)
  exact ⟨j, mem_copyGroup.2 ⟨i, hi, hj.symm⟩⟩

theorem fjr_ballots {W : Finset ℕ} {q : ℚ} (hJ : FJR p' W q) : FJR p W q := fun G T β hGn hβ hG hc => by
  have hne : ∀ i ∈ G, appr p i ≠ ∅ := fun i hi e => by
    have := hc i hi
    rw [e] at this
    simp at this
    omega
  obtain ⟨i, hi, hx⟩ := hJ (copyGroup p' G) T β (copyGroup_nonempty h hp hp' hGn hne) hβ (hG.trans (wt_copyGroup h hp hne)) fun i hi => by
    obtain ⟨j, hj, e⟩ := mem_copyGroup.1 hi
    rw [← e]; exact hc j hj
  obtain ⟨j, hj, e⟩ := mem_copyGroup.1 hi
  exact ⟨j, hj, by unfold sat at hx ⊢; rw [e]; exact hx⟩

theorem core_ballots {W : Finset ℕ} {q : ℚ} (hJ : Core p' W q) : Core p W q := fun G T hGn hG => by
  by_cases hne : ∀ i ∈ G, appr p i ≠ ∅
  · obtain ⟨i, hi, hx⟩ := hJ (copyGroup p' G) T (copyGroup_nonempty h hp hp' hGn hne) (hG.trans (wt_copyGroup h hp hne))
    obtain ⟨j, hj, e⟩ := mem_copyGroup.1 hi
    exact ⟨j, hj, by unfold sat at hx ⊢; rw [e]; exact hx⟩
  · push Not at hne
    obtain ⟨i, hi, e⟩ := hne
    exact ⟨i, hi, by rw [e]; simp⟩

theorem dominates_ballots {W X : Finset ℕ} (hd : Dominates p W X) : Dominates p' W X := by
  have key : ∀ {p p' : Profile}, SameBallots p p' → p.WF → p'.WF → ∀ v ∈ p.voters, v.A ≠ ∅ → ∃ v' ∈ p'.voters, v'.A = v.A := by
    intro p p' h hp hp' v hv hne
    obtain ⟨i, rfl⟩ := List.get_of_mem hv
    obtain ⟨j, hj⟩ := exists_copy h hp hp' (i := i) hne
    exact ⟨_, List.get_mem _ j, hj⟩
  refine ⟨fun v hv => ?_, ?_⟩
  · by_cases hne : v.A = ∅
    · simp [util, hne]
    · obtain ⟨v', hv', e⟩ := key h.symm hp' hp v hv hne
      have := hd.1 v' hv'
      unfold util at this ⊢
      rwa [e] at this
  · obtain ⟨v, hv, hlt⟩ := hd.2
    have hne : v.A ≠ ∅ := fun e => by simp [util, e] at hlt
    obtain ⟨v', hv', e⟩ := key h hp hp' v hv hne
    exact ⟨v', hv', by unfold util at hlt ⊢; rwa [e]⟩

theorem pareto_ballots {W : Finset ℕ} (hJ : ParetoOptimal p' W) : ParetoOptimal p W := fun X hX hd =>
  hJ X ((committee_ballots h _ _).1 hX) (dominates_ballots h hp hp' hd)

end

/-! ### Payments -/

/-- Total of `f` over the voters with ballot `A`. -/
def ballotSum (p : Profile) (f : Fin p.voters.length → ℚ) (A : Finset ℕ) : ℚ := ∑ i with appr p i = A, f i

/-- The voters with the same ballot share their payments in proportion to their weight. -/
def spread (p p' : Profile) (f : Fin p.voters.length → ℚ) (i : Fin p'.voters.length) : ℚ :=
  (p'.voters.get i).weight * (ballotSum p f (appr p' i) / electorate p.voters (appr p' i))

theorem electorate_fin (p : Profile) (A : Finset ℕ) : electorate p.voters A = ∑ i with appr p i = A, (p.voters.get i).weight := by
  have h := voters_map_sum p (fun v => if v.A = A then v.weight else 0)
  rw [Finset.sum_filter]
  refine Eq.trans ?_ h
  unfold electorate
  induction p.voters with
  | nil => rfl
  | cons v vs ih =>
    rw [List.filter_cons]
    by_cases e : v.A = A
    · simp [e, ih]
    · simp [e, ih]

section
variable {p p' : Profile} (h : SameBallots p p') (hp : p.WF)

include hp

theorem electorate_appr_pos (i : Fin p.voters.length) : 0 < electorate p.voters (appr p i) :=
  (electorate_pos hp _).2 ⟨_, List.get_mem _ i, rfl⟩

theorem electorate_nonneg (A : Finset ℕ) : 0 ≤ electorate p.voters A := by
  rw [electorate_fin]
  exact Finset.sum_nonneg fun i _ => (weight_pos hp i).le

/-- Adding up the shares gives the original total. -/
theorem sum_ballotSum (P : Finset ℕ → Prop) [DecidablePred P] (f : Fin p.voters.length → ℚ) :
    ∑ i, (p.voters.get i).weight * (if P (appr p i) then ballotSum p f (appr p i) / electorate p.voters (appr p i) else 0)
      = ∑ i with P (appr p i), f i := by
  have h1 : ∀ i, (p.voters.get i).weight * (if P (appr p i) then ballotSum p f (appr p i) / electorate p.voters (appr p i) else 0)
      = ∑ j, if appr p j = appr p i then
          (if P (appr p j) then f j * ((p.voters.get i).weight / electorate p.voters (appr p j)) else 0) else 0 := by
    intro i
    rw [← Finset.sum_filter]
    by_cases hP : P (appr p i)
    · rw [if_pos hP]
      unfold ballotSum
      rw [Finset.sum_div, Finset.mul_sum]
      refine Finset.sum_congr rfl fun j hj => ?_
      rw [(Finset.mem_filter.1 hj).2, if_pos hP]
      ring
    · rw [if_neg hP, mul_zero]
      refine (Finset.sum_eq_zero fun j hj => ?_).symm
      rw [(Finset.mem_filter.1 hj).2, if_neg hP]
  rw [Finset.sum_congr rfl fun i _ => h1 i, Finset.sum_comm, Finset.sum_filter]
  refine Finset.sum_congr rfl fun j _ => ?_
  rw [← Finset.sum_filter]
  by_cases hP : P (appr p j)
  · simp only [if_pos hP]
    rw [← Finset.mul_sum, ← Finset.sum_div]
    have h2 : ∑ i with appr p j = appr p i, (p.voters.get i).weight = electorate p.voters (appr p j) := by
      rw [electorate_fin]
      refine Finset.sum_congr (Finset.filter_congr fun i _ => ⟨Eq.symm, Eq.symm⟩) fun _ _ => rfl
    rw [h2, div_self (electorate_appr_pos hp j).ne', mul_one]
  · simp only [if_neg hP, Finset.sum_const_zero]

include h

theorem sum_spread (P : Finset ℕ → Prop) [DecidablePred P] (f : Fin p.voters.length → ℚ) (h0 : P ∅ → ∀ i, appr p i = ∅ → f i = 0) :
    ∑ i with P (appr p' i), spread p p' f i = ∑ i with P (appr p i), f i := by
  rw [← sum_ballotSum hp P f, sum_fin h (fun A => if P A then ballotSum p f A / electorate p.voters A else 0) ?_, Finset.sum_filter]
  · refine Finset.sum_congr rfl fun i _ => ?_
    unfold spread
    split_ifs <;> simp
  · split_ifs with hP
    · have : ballotSum p f ∅ = 0 := Finset.sum_eq_zero fun i hi => h0 hP i (Finset.mem_filter.1 hi).2
      rw [this, zero_div]
    · rfl

omit h in
theorem spread_mono (hp' : p'.WF) {f g : Fin p.voters.length → ℚ} (i : Fin p'.voters.length) (hfg : ∀ j, appr p j = appr p' i → f j ≤ g j) :
    spread p p' f i ≤ spread p p' g i := by
  unfold spread ballotSum
  exact mul_le_mul_of_nonneg_left (div_le_div_of_nonneg_right (Finset.sum_le_sum fun j hj => hfg j (Finset.mem_filter.1 hj).2)
    (electorate_nonneg hp _)) (weight_pos hp' i).le

omit h in
/-- Spreading the budgets gives the budgets. -/
theorem spread_weight (b : ℚ) (i : Fin p'.voters.length) (hi : electorate p.voters (appr p' i) ≠ 0) :
    spread p p' (fun j => (p.voters.get j).weight * b) i = (p'.voters.get i).weight * b := by
  unfold spread ballotSum
  rw [← Finset.sum_mul, ← electorate_fin]
  field_simp

omit h in
omit hp in
theorem spread_sub (f g : Fin p.voters.length → ℚ) (i : Fin p'.voters.length) :
    spread p p' (fun j => f j - g j) i = spread p p' f i - spread p p' g i := by
  unfold spread ballotSum
  rw [Finset.sum_sub_distrib]
  ring

omit h in
omit hp in
theorem spread_sum {C : Finset ℕ} (f : ℕ → Fin p.voters.length → ℚ) (i : Fin p'.voters.length) :
    spread p p' (fun j => ∑ c ∈ C, f c j) i = ∑ c ∈ C, spread p p' (f c) i := by
  unfold spread ballotSum
  rw [Finset.sum_comm, Finset.sum_div, Finset.mul_sum]

theorem electorate_ne_zero (hp' : p'.WF) {i : Fin p'.voters.length} (hi : appr p' i ≠ ∅) : electorate p.voters (appr p' i) ≠ 0 := by
  rw [h.2 _ hi]
  exact (electorate_appr_pos hp' i).ne'

theorem priceSystem_ballots (hp' : p'.WF) {W : Finset ℕ} {b : ℚ} {pay : Fin p.voters.length → ℕ → ℚ} (hs : PriceSystem p W b pay) :
    PriceSystem p' W b (fun i c => spread p p' (fun j => pay j c) i) where
  budget_nonneg := hs.budget_nonneg
  nonneg i c := mul_nonneg (weight_pos hp' i).le (div_nonneg (Finset.sum_nonneg fun j _ => hs.nonneg j c) (electorate_nonneg hp _))
  approved i c hne := by
    by_contra hc
    apply hne
    unfold spread ballotSum
    rw [Finset.sum_eq_zero, zero_div, mul_zero]
    intro j hj
    by_contra e
    exact hc ((Finset.mem_filter.1 hj).2 ▸ hs.approved j c e)
  budget i := by
    rw [← spread_sum (fun c j => pay j c)]
    by_cases hi : appr p' i = ∅
    · have : spread p p' (fun j => ∑ c ∈ Finset.range p.numCand, pay j c) i = 0 := by
        unfold spread ballotSum
        rw [Finset.sum_eq_zero, zero_div, mul_zero]
        intro j hj
        refine Finset.sum_eq_zero fun c _ => ?_
        by_contra e
        have := hs.approved j c e
        rw [(Finset.mem_filter.1 hj).2, hi] at this
        simp at this
      rw [← h.1, this]
      exact mul_nonneg (weight_pos hp' i).le hs.budget_nonneg
    · rw [← spread_weight hp b i (electorate_ne_zero h hp hp' hi), ← h.1]
      exact spread_mono hp hp' i fun j _ => hs.budget j
  elected c hc := by
    have := sum_spread h hp (fun _ => True) (fun j => pay j c) fun _ i e => by
      by_contra hne
      have := hs.approved i c hne
      simp [e] at this
    simp only [Finset.filter_true] at this
    rw [this]
    exact hs.elected c hc
  other c hc hcW := by
    have := sum_spread h hp (fun _ => True) (fun j => pay j c) fun _ i e => by
      by_contra hne
      have := hs.approved i c hne
      simp [e] at this
    simp only [Finset.filter_true] at this
    rw [this]
    exact hs.other c (h.1 ▸ hc) hcW

theorem leftAfter_ballots (hp' : p'.WF) (W : Finset ℕ) (b : ℚ) (pay : Fin p.voters.length → ℕ → ℚ) {i : Fin p'.voters.length}
    (hi : appr p' i ≠ ∅) :
    leftAfter p' W b (fun i c => spread p p' (fun j => pay j c) i) i = spread p p' (leftAfter p W b pay) i := by
  unfold leftAfter
  rw [spread_sub (fun j => (p.voters.get j).weight * b) (fun j => ∑ c ∈ W, pay j c),
    spread_weight hp b i (electorate_ne_zero h hp hp' hi), spread_sum (fun c j => pay j c)]

theorem priceable_ballots (hp' : p'.WF) {W : Finset ℕ} (hP : Priceable p W) : Priceable p' W := by
  obtain ⟨b, pay, hs, hl⟩ := hP
  refine ⟨b, _, priceSystem_ballots h hp hp' hs, fun c hc hcW => ?_⟩
  refine le_trans (le_of_eq ?_) (hl c (h.1 ▸ hc) hcW)
  rw [← sum_spread h hp (fun A => c ∈ A) _ (fun e => absurd e (by simp))]
  refine Finset.sum_congr rfl fun i hi => leftAfter_ballots h hp hp' W b pay fun e => ?_
  have := (Finset.mem_filter.1 hi).2
  simp [e] at this

theorem stablePriceable_ballots (hp' : p'.WF) {W : Finset ℕ} (hP : StablePriceable p W) : StablePriceable p' W := by
  obtain ⟨b, pay, hs, hl⟩ := hP
  refine ⟨b, _, priceSystem_ballots h hp hp' hs, fun c hc hcW => ?_⟩
  refine le_trans ?_ (hl c (h.1 ▸ hc) hcW)
  rw [← sum_spread h hp (fun A => c ∈ A) _ (fun e => absurd e (by simp))]
  refine Finset.sum_le_sum fun i hi => Finset.max'_le _ _ _ fun y hy => ?_
  have hi' : appr p' i ≠ ∅ := fun e => by
    have := (Finset.mem_filter.1 hi).2
    simp [e] at this
  rcases Finset.mem_insert.1 hy with rfl | hy
  · rw [leftAfter_ballots h hp hp' W b pay hi']
    exact spread_mono hp hp' i fun j _ => Finset.le_max' _ _ (Finset.mem_insert_self _ _)
  · obtain ⟨d, hd, rfl⟩ := Finset.mem_image.1 hy
    exact spread_mono hp hp' i fun j _ => Finset.le_max' _ _ (Finset.mem_insert_of_mem (Finset.mem_image_of_mem _ hd))

theorem priceableOrFull_ballots (hp' : p'.WF) {stable : Bool} {W : Finset ℕ} (hP : PriceableOrFull stable p W) :
    PriceableOrFull stable p' W := by
  unfold PriceableOrFull at hP ⊢
  rw [← approvedSet_ballots h hp hp']
  split_ifs at hP ⊢ with h1 h2
  · exact hP
  · exact stablePriceable_ballots h hp hp' hP
  · exact priceable_ballots h hp hp' hP

end

/-- Every property depends only on the total weight of the nonempty ballots. -/
theorem satisfies_ballots {p p' : Profile} (h : SameBallots p p') (hp : p.WF) (hp' : p'.WF) (name : String) (W : Finset ℕ) (q : ℚ) :
    Satisfies name p W q ↔ Satisfies name p' W q := by
  unfold Satisfies
  split_ifs
  · exact ⟨pareto_ballots h.symm hp' hp, pareto_ballots h hp hp'⟩
  · exact ⟨jr_ballots h.symm hp' hp, jr_ballots h hp hp'⟩
  · exact ⟨pjr_ballots h.symm hp' hp, pjr_ballots h hp hp'⟩
  · exact ⟨ejr_ballots h.symm hp' hp, ejr_ballots h hp hp'⟩
  · exact ⟨ejrplus_ballots h.symm hp' hp, ejrplus_ballots h hp hp'⟩
  · exact ⟨fjr_ballots h.symm hp' hp, fjr_ballots h hp hp'⟩
  · exact ⟨priceableOrFull_ballots h hp hp', priceableOrFull_ballots h.symm hp' hp⟩
  · exact ⟨priceableOrFull_ballots h hp hp', priceableOrFull_ballots h.symm hp' hp⟩
  · exact ⟨core_ballots h.symm hp' hp, core_ballots h hp hp'⟩

section
variable {solve solve' : Program → SolveResult} {solveMax solveMax' : MaxProgram → SolveResult} (hs : ExactSolver solve)
  (hs' : ExactSolver solve') (hm : ExactMaxSolver solveMax) (hm' : ExactMaxSolver solveMax') (ap ap' : List ℕ)
  {p p' : Profile} (hp : p.WF) (hp' : p'.WF) {W : List ℕ} (hW : W.Nodup) (hlt : ∀ c ∈ W, c < p.numCand)
  {algorithm algorithm' : String} (ha : algorithm = "fastest" ∨ algorithm = "gurobi") (ha' : algorithm' = "fastest" ∨ algorithm' = "gurobi")

include hs hs' hp hp' hW hlt ha ha'

include hm hm' in
/-- **C114** `check` depends only on the total weight of every ballot: voters may be reordered, and voters with the same ballot may be
merged into one with the sum of their weights. -/
theorem C114_check_electorate (h : SameElectorate p p') (hv : p.voters ≠ []) (hne : W ≠ []) {name : String} (hn : name ∈ propertyNames) :
    check solve' solveMax' ap' name p' (W.map Int.ofNat) none algorithm' = check solve solveMax ap name p (W.map Int.ofNat) none algorithm := by
  have hv' : p'.voters ≠ [] := fun e => hv (List.length_eq_zero_iff.1 ((voters_nil_iff hp hp' h).2 (by rw [e]; rfl)))
  obtain ⟨b, h1, h2⟩ := C60_check hs hm ap hp hW hlt ha hv hne hn
  obtain ⟨b', h1', h2'⟩ := C60_check hs' hm' ap' hp' hW (fun c hc => h.1 ▸ hlt c hc) ha' hv' hne hn
  rw [h1, h1']
  rw [← total_electorate h, ← satisfies_ballots h.ballots hp hp', ← h2] at h2'
  rw [Bool.eq_iff_iff.2 h2']

include hm hm' in
/-- **C114** Voters who approve nobody do not matter for Pareto optimality, priceability and stable priceability, … -/
theorem C114_check_empty_ballots (h : SameBallots p p') (hv : p.voters ≠ []) (hv' : p'.voters ≠ []) (hne : W ≠ []) {name : String}
    (hn : name ∈ ["pareto", "priceability", "stable-priceability"]) :
    check solve' solveMax' ap' name p' (W.map Int.ofNat) none algorithm' = check solve solveMax ap name p (W.map Int.ofNat) none algorithm := by
  have hn' : name ∈ propertyNames := by
    simp only [List.mem_cons, List.not_mem_nil, or_false] at hn
    rcases hn with rfl | rfl | rfl <;> decide
  obtain ⟨b, h1, h2⟩ := C60_check hs hm ap hp hW hlt ha hv hne hn'
  obtain ⟨b', h1', h2'⟩ := C60_check hs' hm' ap' hp' hW (fun c hc => h.1 ▸ hlt c hc) ha' hv' hne hn'
  rw [h1, h1']
  have hq : ∀ q q', Satisfies name p W.toFinset q ↔ Satisfies name p W.toFinset q' := by
    intro q q'
    simp only [List.mem_cons, List.not_mem_nil, or_false] at hn
    rcases hn with rfl | rfl | rfl <;> exact Iff.rfl
  rw [← satisfies_ballots h hp hp', hq _ (total p / W.length), ← h2] at h2'
  rw [Bool.eq_iff_iff.2 h2']

/-- **C114** … and not for JR, PJR, EJR, EJR+, FJR and the core with a given quota. -/
theorem C114_check_quota (h : SameBallots p p') {q : ℚ} (hq : 0 < q) {name : String}
    (hn : name ∈ ["jr", "pjr", "ejr", "ejr+", "fjr", "core"])
    (hsat : name = "ejr+" → ∀ i, (sat p W.toFinset i : ℚ) * q ≤ total p)
    (hsat' : name = "ejr+" → ∀ i, (sat p' W.toFinset i : ℚ) * q ≤ total p') :
    check solve' solveMax' ap' name p' (W.map Int.ofNat) (some q) algorithm'
      = check solve solveMax ap name p (W.map Int.ofNat) (some q) algorithm := by
  obtain ⟨b, h1, h2⟩ := check_quota_all (solveMax := solveMax) hs ap hp hW hlt ha (some q) hq hn hsat
  obtain ⟨b', h1', h2'⟩ := check_quota_all (solveMax := solveMax') hs' ap' hp' hW (fun c hc => h.1 ▸ hlt c hc) ha' (some q) hq hn hsat'
  rw [h1, h1']
  change (b' = true ↔ Satisfies name p' W.toFinset q) at h2'
  rw [← satisfies_ballots h hp hp'] at h2'
  rw [Bool.eq_iff_iff.2 (h2'.trans h2.symm)]

end

/-! ### Examples -/

/-- Two voters for 0 and two voters for 1. -/
def twoGroups : Profile := ⟨4, [⟨[0], 1⟩, ⟨[0], 1⟩, ⟨[1], 1⟩, ⟨[1], 1⟩], []⟩

/-- The same electorate with fewer voters, … -/
def twoGroupsMerged : Profile := ⟨4, [⟨[1], 2⟩, ⟨[0], 1⟩, ⟨[0], 1⟩], []⟩

/-- … and with an additional voter who approves nobody. -/
def twoGroupsEmpty : Profile := ⟨4, [⟨[1], 2⟩, ⟨[], 5⟩, ⟨[0], 2⟩], []⟩

theorem twoGroups_wf : twoGroups.WF := ⟨by decide, by decide, by decide, by decide +kernel⟩
theorem twoGroupsMerged_wf : twoGroupsMerged.WF := ⟨by decide, by decide, by decide, by decide +kernel⟩
theorem twoGroupsEmpty_wf : twoGroupsEmpty.WF := ⟨by decide, by decide, by decide, by decide +kernel⟩

theorem twoGroups_same : SameElectorate twoGroups twoGroupsMerged := by
  refine ⟨rfl, fun A => ?_⟩
  unfold electorate twoGroups twoGroupsMerged Voter.A
  by_cases h0 : A = {0}
  · subst h0; decide +kernel
  by_cases h1 : A = {1}
  · subst h1; decide +kernel
  have e0 : ¬ ([0] : List ℕ).toFinset = A := fun e => h0 (by rw [← e]; decide)
  have e1 : ¬ ([1] : List ℕ).toFinset = A := fun e => h1 (by rw [← e]; decide)
  simp only [List.filter_cons, List.filter_nil, e0, e1, decide_false, Bool.false_eq_true, if_false]

theorem twoGroups_sameBallots : SameBallots twoGroups twoGroupsEmpty := by
  refine ⟨rfl, fun A hA => ?_⟩
  unfold electorate twoGroups twoGroupsEmpty Voter.A
  by_cases h0 : A = {0}
  · subst h0; decide +kernel
  by_cases h1 : A = {1}
  · subst h1; decide +kernel
  have e0 : ¬ ([0] : List ℕ).toFinset = A := fun e => h0 (by rw [← e]; decide)
  have e1 : ¬ ([1] : List ℕ).toFinset = A := fun e => h1 (by rw [← e]; decide)
  have e2 : ¬ ([] : List ℕ).toFinset = A := fun e => hA (by rw [← e]; decide)
  simp only [List.filter_cons, List.filter_nil, e0, e1, e2, decide_false, Bool.false_eq_true, if_false]

/-- **C113** With the default quota, larger committees may fail: the quota is smaller for them. -/
theorem C113_default_quota (solve : Program → SolveResult) (solveMax : MaxProgram → SolveResult) (ap : List ℕ) :
    check solve solveMax ap "jr" twoGroups [2] none "fastest" = .ok true ∧
    check solve solveMax ap "jr" twoGroups [2, 3] none "fastest" = .ok false := by
  have h : ∀ W, check solve solveMax ap "jr" twoGroups W none "fastest" = checkJR twoGroups W none := fun _ => rfl
  rw [h, h]
  decide +kernel

/-- **C114** With the default quota, voters who approve nobody do matter: they increase the quota. -/
theorem C114_default_quota (solve : Program → SolveResult) (solveMax : MaxProgram → SolveResult) (ap : List ℕ) :
    SameBallots twoGroups twoGroupsEmpty ∧
    check solve solveMax ap "jr" twoGroups [2, 3] none "fastest" = .ok false ∧
    check solve solveMax ap "jr" twoGroupsEmpty [2, 3] none "fastest" = .ok true := by
  have h : ∀ p W, check solve solveMax ap "jr" p W none "fastest" = checkJR p W none := fun _ _ => rfl
  rw [h, h]
  exact ⟨twoGroups_sameBallots, by decide +kernel, by decide +kernel⟩

/-- The hypotheses of `C113_check_monotone` can be met. -/
example (solve : Program → SolveResult) (solveMax : MaxProgram → SolveResult) (hs : ExactSolver solve) :
    check solve solveMax [] "jr" twoGroups ([0, 2, 1].map Int.ofNat) (some 3) "gurobi" = .ok true :=
  C113_check_monotone (solveMax := solveMax) hs hs [] [] twoGroups_wf (W := [1, 0]) (by decide) (by decide) (by decide) (by decide) (Or.inl rfl)
    (Or.inr rfl) (quota := none) (by decide +kernel) (by decide +kernel) (by decide) (by decide)
    (by
      have h : ∀ W, check solve solveMax [] "jr" twoGroups W none "fastest" = checkJR twoGroups W none := fun _ => rfl
      rw [h]
      decide +kernel)

/-- The hypotheses of the theorems of C114 can be met. -/
example (solve : Program → SolveResult) (solveMax : MaxProgram → SolveResult) (hs : ExactSolver solve) (hm : ExactMaxSolver solveMax) :
    check solve solveMax [] "stable-priceability" twoGroupsMerged ([0, 2].map Int.ofNat) none "gurobi" =
        check solve solveMax [] "stable-priceability" twoGroups ([0, 2].map Int.ofNat) none "gurobi" ∧
      check solve solveMax [] "stable-priceability" twoGroupsEmpty ([0, 2].map Int.ofNat) none "gurobi" =
        check solve solveMax [] "stable-priceability" twoGroups ([0, 2].map Int.ofNat) none "gurobi" ∧
      check solve solveMax [] "core" twoGroupsEmpty ([0, 2].map Int.ofNat) (some (3 / 2)) "gurobi" =
        check solve solveMax [] "core" twoGroups ([0, 2].map Int.ofNat) (some (3 / 2)) "gurobi" :=
  ⟨C114_check_electorate hs hs hm hm [] [] twoGroups_wf twoGroupsMerged_wf (by decide) (by decide) (Or.inr rfl) (Or.inr rfl) twoGroups_same
      (by decide) (by decide) (by decide),
    C114_check_empty_ballots hs hs hm hm [] [] twoGroups_wf twoGroupsEmpty_wf (by decide) (by decide) (Or.inr rfl) (Or.inr rfl)
      twoGroups_sameBallots (by decide) (by decide) (by decide) (by decide),
    C114_check_quota hs hs [] [] twoGroups_wf twoGroupsEmpty_wf (by decide) (by decide) (Or.inr rfl) (Or.inr rfl) twoGroups_sameBallots
      (by norm_num) (by decide) (fun h => absurd h (by decide)) (fun h => absurd h (by decide))⟩

end Abc
