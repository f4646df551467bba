import Verif.Lemmas.RenamingShares
import Verif.Props.Neutrality
import Verif.Props.Check

/-!
# C80: the axioms do not depend on names, order and units
-/

namespace Abc
open Spec

variable {s : ℚ} {p p' : Profile}

section
variable (R : Renaming s p p')

theorem forall_group {P : Group p' → Prop} : (∀ G, P G) ↔ ∀ G : Group p, P (G.map R.voter.toEmbedding) :=
  ⟨fun h G => h _, fun h G => by obtain ⟨H, rfl⟩ := R.group_surj G; exact h H⟩

theorem forall_mem_group {G : Group p} {P : Fin p'.voters.length → Prop} :
    (∀ i ∈ G.map R.voter.toEmbedding, P i) ↔ ∀ i ∈ G, P (R.voter i) := Finset.forall_mem_map.trans Iff.rfl

theorem exists_mem_group {G : Group p} {P : Fin p'.voters.length → Prop} :
    (∃ i ∈ G.map R.voter.toEmbedding, P i) ↔ ∃ i ∈ G, P (R.voter i) := by
  constructor
  · rintro ⟨i, hi, h⟩
    obtain ⟨j, hj, rfl⟩ := Finset.mem_map.1 hi
    exact ⟨j, hj, h⟩
  · rintro ⟨j, hj, h⟩
    exact ⟨_, Finset.mem_map_of_mem _ hj, h⟩

theorem sat_rename (W : Finset ℕ) (i : Fin p.voters.length) : sat p' (R.set W) (R.voter i) = sat p W i := by
  unfold sat
  rw [R.appr_voter, R.set_inter, R.card_set]

theorem card_appr_rename (T : Finset ℕ) (i : Fin p.voters.length) :
    (appr p' (R.voter i) ∩ R.set T).card = (appr p i ∩ T).card := sat_rename R T i

theorem quota_rename {q : ℚ} {ℓ : ℕ} {G : Group p} : (ℓ : ℚ) * (s * q) ≤ wt p' (G.map R.voter.toEmbedding) ↔ (ℓ : ℚ) * q ≤ wt p G := by
  rw [R.wt, mul_left_comm, R.mul_le]

theorem jr_rename (W : Finset ℕ) (q : ℚ) : JR p' (R.set W) (s * q) ↔ JR p W q := by
  unfold JR
  rw [forall_group R]
  refine forall_congr' fun G => ?_
  rw [R.forall_cand]
  simp only [R.wt, R.mul_le, forall_mem_group, exists_mem_group, R.appr_voter, R.mem_set, R.set_inter, ← Finset.card_pos, R.card_set]

theorem cohesive_rename {q : ℚ} {ℓ : ℕ} {G : Group p} {T : Finset ℕ} :
    Cohesive p' (s * q) ℓ (G.map R.voter.toEmbedding) (R.set T) ↔ Cohesive p q ℓ G T := by
  unfold Cohesive
  simp only [quota_rename, R.card_set, forall_mem_group, R.appr_voter, R.set_subset]

theorem pjr_rename (W : Finset ℕ) (q : ℚ) : PJR p' (R.set W) (s * q) ↔ PJR p W q := by
  unfold PJR
  refine forall_congr' fun ℓ => ?_
  rw [forall_group R]
  refine forall_congr' fun G => ?_
  rw [R.forall_set]
  have : (G.map R.voter.toEmbedding).biUnion (appr p') = R.set (G.biUnion (appr p)) := by
    ext x
    obtain ⟨d, rfl⟩ := R.cand.surjective x
    rw [R.mem_set, Finset.mem_biUnion, Finset.mem_biUnion, exists_mem_group]
    simp only [R.approves]
  simp only [cohesive_rename, this, R.set_inter, R.card_set]

theorem ejr_rename (W : Finset ℕ) (q : ℚ) : EJR p' (R.set W) (s * q) ↔ EJR p W q := by
  unfold EJR
  refine forall_congr' fun ℓ => ?_
  rw [forall_group R]
  refine forall_congr' fun G => ?_
  rw [R.forall_set]
  simp only [cohesive_rename, exists_mem_group, sat_rename]

theorem ejrplus_rename (W : Finset ℕ) (q : ℚ) : EJRplus p' (R.set W) (s * q) ↔ EJRplus p W q := by
  unfold EJRplus
  refine forall_congr' fun ℓ => ?_
  rw [forall_group R]
  refine forall_congr' fun G => ?_
  rw [R.forall_cand]
  simp only [quota_rename, exists_mem_group, forall_mem_group, sat_rename, R.mem_set, R.approves]

theorem fjr_rename (W : Finset ℕ) (q : ℚ) : FJR p' (R.set W) (s * q) ↔ FJR p W q := by
  unfold FJR
  rw [forall_group R]
  refine forall_congr' fun G => ?_
  rw [R.forall_set]
  simp only [R.card_set, quota_rename, exists_mem_group, forall_mem_group, sat_rename, card_appr_rename, Finset.map_nonempty]

theorem core_rename (W : Finset ℕ) (q : ℚ) : Core p' (R.set W) (s * q) ↔ Core p W q := by
  unfold Core
  rw [forall_group R]
  refine forall_congr' fun G => ?_
  rw [R.forall_set]
  simp only [R.card_set, quota_rename, exists_mem_group, sat_rename, card_appr_rename, Finset.map_nonempty]

theorem dominates_rename (W X : Finset ℕ) : Dominates p' (R.set W) (R.set X) ↔ Dominates p W X := by
  unfold Dominates
  rw [R.forall_mem_voters, List.forall_mem_iff_get, List.exists_mem_iff_get, List.exists_mem_iff_get, R.voter.surjective.exists]
  simp only [R.util]

theorem pareto_rename (W : Finset ℕ) : ParetoOptimal p' (R.set W) ↔ ParetoOptimal p W := by
  unfold ParetoOptimal
  rw [R.forall_set]
  simp only [dominates_rename, R.isCommittee, R.card_set]

theorem priceSystem_rename {W : Finset ℕ} {b : ℚ} {pay : Fin p.voters.length → ℕ → ℚ} (h : PriceSystem p W b pay) :
    PriceSystem p' (R.set W) (s⁻¹ * b) (fun i c => pay (R.voter.symm i) (R.cand.symm c)) where
  budget_nonneg := mul_nonneg R.symm.pos.le h.budget_nonneg
  nonneg i c := h.nonneg _ _
  approved := by
    refine R.forall_voter.2 fun i => R.forall_cand.2 fun c hne => ?_
    rw [R.approves]
    exact h.approved i c (by simpa using hne)
  budget := by
    refine R.forall_voter.2 fun i => ?_
    rw [← R.set_range, R.sum_set, R.weight]
    have := h.budget i
    have e : s * (p.voters.get i).weight * (s⁻¹ * b) = (p.voters.get i).weight * b := by
      have := R.pos.ne'
      field_simp
    rw [e]
    simpa using this
  elected := by
    refine R.forall_cand.2 fun c hc => ?_
    rw [R.sum_voters]
    simpa using h.elected c (R.mem_set.1 hc)
  other := by
    refine R.forall_cand.2 fun c hc hcW => ?_
    rw [R.sum_voters]
    simpa using h.other c ((R.lt' c).1 hc) fun e => hcW (R.mem_set.2 e)

theorem leftAfter_rename (W : Finset ℕ) (b : ℚ) (pay : Fin p.voters.length → ℕ → ℚ) (i : Fin p.voters.length) :
    leftAfter p' (R.set W) (s⁻¹ * b) (fun i c => pay (R.voter.symm i) (R.cand.symm c)) (R.voter i) = leftAfter p W b pay i := by
  unfold leftAfter
  have e : s * (p.voters.get i).weight * (s⁻¹ * b) = (p.voters.get i).weight * b := by
    have := R.pos.ne'
    field_simp
  rw [R.sum_set, R.weight, e]
  simp

theorem sum_approvers (c : ℕ) (f : Fin p'.voters.length → ℚ) :
    ∑ i with R.cand c ∈ appr p' i, f i = ∑ i with c ∈ appr p i, f (R.voter i) := by
  rw [Finset.sum_filter, Finset.sum_filter, R.sum_voters]
  refine Finset.sum_congr rfl fun i _ => ?_
  by_cases h : c ∈ appr p i
  · rw [if_pos ((R.approves i c).2 h), if_pos h]
  · rw [if_neg (fun e => h ((R.approves i c).1 e)), if_neg h]

theorem priceable_rename {W : Finset ℕ} (h : Priceable p W) : Priceable p' (R.set W) := by
  obtain ⟨b, pay, h1, h2⟩ := h
  refine ⟨_, _, priceSystem_rename R h1, R.forall_cand.2 fun c hc hcW => ?_⟩
  rw [sum_approvers, Finset.sum_congr rfl fun i _ => leftAfter_rename R W b pay i]
  exact h2 c ((R.lt' c).1 hc) fun e => hcW (R.mem_set.2 e)

theorem stablePriceable_rename {W : Finset ℕ} (h : StablePriceable p W) : StablePriceable p' (R.set W) := by
  obtain ⟨b, pay, h1, h2⟩ := h
  refine ⟨_, _, priceSystem_rename R h1, R.forall_cand.2 fun c hc hcW => ?_⟩
  have himg : ∀ i, (R.set W).image (fun c => pay (R.voter.symm (R.voter i)) (R.cand.symm c)) = W.image (pay i) := by
    intro i
    unfold Renaming.set
    rw [Finset.map_eq_image, Finset.image_image]
    congr 1
    funext c
    simp
  rw [sum_approvers]
  refine (Finset.sum_congr rfl fun i _ => ?_).trans_le (h2 c ((R.lt' c).1 hc) fun e => hcW (R.mem_set.2 e))
  congr 1
  rw [leftAfter_rename, himg]

theorem priceableOrFull_rename {stable : Bool} {W : Finset ℕ} (h : PriceableOrFull stable p W) : PriceableOrFull stable p' (R.set W) := by
  unfold PriceableOrFull at h ⊢
  rw [approvedSet_rename R, R.card_set, R.card_set, R.set_subset]
  split_ifs at h ⊢ with h1 h2
  · exact h
  · exact stablePriceable_rename R h
  · exact priceable_rename R h

/-- Every property is invariant under renaming. -/
theorem satisfies_rename (name : String) (W : Finset ℕ) (q : ℚ) : Satisfies name p' (R.set W) (s * q) ↔ Satisfies name p W q := by
  unfold Satisfies
  split_ifs
  · exact pareto_rename R W
  · exact jr_rename R W q
  · exact pjr_rename R W q
  · exact ejr_rename R W q
  · exact ejrplus_rename R W q
  · exact fjr_rename R W q
  · exact rename_iff (F := fun p => PriceableOrFull false p) (fun R _ h => priceableOrFull_rename R h) R W
  · exact rename_iff (F := fun p => PriceableOrFull true p) (fun R _ h => priceableOrFull_rename R h) R W
  · exact core_rename R W q

end

/-- **C80** `check` gives the same answer if the voters are reordered, the candidates are renamed (also in the committee, which may be
listed in any order) and all weights are multiplied by the same number; also with other solvers. -/
theorem C80_check {solve solve' : Program → SolveResult} {solveMax solveMax' : MaxProgram → SolveResult} (hs : ExactSolver solve)
    (hs' : ExactSolver solve') (hm : ExactMaxSolver solveMax) (hm' : ExactMaxSolver solveMax') (ap ap' : List ℕ) (hp : p.WF)
    (hp' : p'.WF) (R : Renaming s p p') (hv : p.voters ≠ []) {W W' : List ℕ} (hne : W ≠ []) (hW : W.Nodup)
    (hlt : ∀ c ∈ W, c < p.numCand) (hW' : W'.Nodup) (hWW : W'.toFinset = R.set W.toFinset) {algorithm : String}
    (ha : algorithm = "fastest" ∨ algorithm = "gurobi") {name : String} (hn : name ∈ propertyNames) :
    check solve' solveMax' ap' name p' (W'.map Int.ofNat) none algorithm = check solve solveMax ap name p (W.map Int.ofNat) none algorithm := by
  have hlen : W'.length = W.length := by
    rw [← List.toFinset_card_of_nodup hW', hWW, R.card_set, List.toFinset_card_of_nodup hW]
  have hlt' : ∀ c ∈ W', c < p'.numCand := by
    refine R.forall_cand.2 fun c hc => (R.lt' c).2 (hlt c ?_)
    rw [← List.mem_toFinset, hWW, R.mem_set, List.mem_toFinset] at hc
    exact hc
  have hv' : p'.voters ≠ [] := by
    intro h
    apply hv
    rw [← List.length_eq_zero_iff, ← voters_length_rename R, h]
    rfl
  have hne' : W' ≠ [] := by
    intro h
    apply hne
    rw [← List.length_eq_zero_iff, ← hlen, h]
    rfl
  obtain ⟨b, h1, h2⟩ := C60_check hs hm ap hp hW hlt ha hv hne hn
  obtain ⟨b', h1', h2'⟩ := C60_check hs' hm' ap' hp' hW' hlt' ha hv' hne' hn
  rw [h1, h1']
  rw [hWW, hlen, R.total, mul_div_assoc, satisfies_rename, ← h2] at h2'
  rw [Bool.eq_iff_iff.2 h2']

/-- **C80** The same for the properties that take a quota; the quota is multiplied by the same number. -/
theorem C80_check_quota {solve solve' : Program → SolveResult} {solveMax solveMax' : MaxProgram → SolveResult} (hs : ExactSolver solve)
    (hs' : ExactSolver solve') (ap ap' : List ℕ) (hp : p.WF)
    (hp' : p'.WF) (R : Renaming s p p') {W W' : List ℕ} (hW : W.Nodup)
    (hlt : ∀ c ∈ W, c < p.numCand) (hW' : W'.Nodup) (hWW : W'.toFinset = R.set W.toFinset) {algorithm : String}
    (ha : algorithm = "fastest" ∨ algorithm = "gurobi") {name : String} (hn : name ∈ ["jr", "pjr", "ejr", "fjr", "core"])
    {q : ℚ} (hq : 0 < q) :
    check solve' solveMax' ap' name p' (W'.map Int.ofNat) (some (s * q)) algorithm
      = check solve solveMax ap name p (W.map Int.ofNat) (some q) algorithm := by
  have hlt' : ∀ c ∈ W', c < p'.numCand := by
    refine R.forall_cand.2 fun c hc => (R.lt' c).2 (hlt c ?_)
    rw [← List.mem_toFinset, hWW, R.mem_set, List.mem_toFinset] at hc
    exact hc
  obtain ⟨b, h1, h2⟩ := C60_check_quota (solveMax := solveMax) hs ap hp hW hlt ha (some q) hq hn
  obtain ⟨b', h1', h2'⟩ := C60_check_quota (solveMax := solveMax') hs' ap' hp' hW' hlt' ha (some (s * q)) (mul_pos R.pos hq) hn
  rw [h1, h1']
  change (b' = true ↔ Satisfies name p' W'.toFinset (s * q)) at h2'
  rw [hWW, satisfies_rename] at h2'
  rw [Bool.eq_iff_iff.2 (h2'.trans h2.symm)]

/-! ### Example: two voters exchanged, candidates 0 and 2 exchanged, weights multiplied by `s` -/

def renamedExample (s : ℚ) : Profile := ⟨3, [⟨[0, 1], s * 2⟩, ⟨[2, 1], s * 1⟩], []⟩

theorem renamedExample_wf (hs : 0 < s) : (renamedExample s).WF where
  pos := by simp [renamedExample]
  nodup := by simp [renamedExample]
  lt := by simp [renamedExample]
  weight := by simp [renamedExample, hs]

theorem renamedExample_approves (i : Fin exampleProfile.voters.length) (c : ℕ) :
    Equiv.swap 0 2 c ∈ appr (renamedExample 1) ((Equiv.swap 0 1 : Equiv.Perm (Fin 2)) i) ↔ c ∈ appr exampleProfile i := by
  by_cases h0 : c = 0
  · subst h0; revert i; decide +kernel
  by_cases h2 : c = 2
  · subst h2; revert i; decide +kernel
  rw [Equiv.swap_apply_of_ne_of_ne h0 h2]
  by_cases h1 : c = 1
  · subst h1; revert i; decide +kernel
  have : ∀ q : Profile, q.WF → q.numCand = 3 → ∀ i, c ∉ appr q i := by
    intro q hq h3 i hc
    have := hq.lt _ (List.get_mem q.voters i) c (by simpa [appr, Voter.A] using hc)
    omega
  exact iff_of_false (this _ (renamedExample_wf one_pos) rfl _) (this _ exampleProfile_wf rfl _)

def renamingExample (hs : 0 < s) : Renaming s exampleProfile (renamedExample s) where
  voter := (Equiv.swap 0 1 : Equiv.Perm (Fin 2))
  cand := Equiv.swap 0 2
  pos := hs
  numCand := rfl
  lt c := by
    change Equiv.swap 0 2 c < 3 ↔ c < 3
    by_cases h0 : c = 0
    · subst h0; decide
    by_cases h2 : c = 2
    · subst h2; decide
    rw [Equiv.swap_apply_of_ne_of_ne h0 h2]
  approves i c := by
    have key : ∀ (i : Fin 2) c, c ∈ appr (renamedExample s) i ↔ c ∈ appr (renamedExample 1) i :=
      Fin.forall_fin_two.2 ⟨fun _ => Iff.rfl, fun _ => Iff.rfl⟩
    exact (key _ _).trans (renamedExample_approves i c)
  weight := by
    change ∀ i : Fin 2, _
    exact Fin.forall_fin_two.2 ⟨rfl, rfl⟩

/-- C78, C79 and C80 on the example: PAV returns the renamed committees; doubled weights change nothing; `check` agrees. -/
example (w : World) (hw : w.Exact) (he : w.env = exampleEnv) :
    (∃ cs cs', compute w "pav" exampleProfile 2 none ⟨some "brute-force", some false, none⟩ = .ok cs ∧
      compute w "pav" (renamedExample 1) 2 none ⟨some "brute-force", some false, none⟩ = .ok cs' ∧
      ((∃ W ∈ cs', W.toFinset = {0, 1}) ↔ ∃ W ∈ cs, W.toFinset = {1, 2})) ∧
    compute w "pav" (exampleProfile.scale (2 : ℕ)) 2 none ⟨some "brute-force", some false, none⟩
      = compute w "pav" exampleProfile 2 none ⟨some "brute-force", some false, none⟩ := by
  have hal : prologue w.env "pav" exampleProfile { committeesize := 2, algorithm := "brute-force", resolute := false } = .ok "brute-force" := by
    rw [he]; decide +kernel
  have hS : Elects w exampleProfile 2 "brute-force" "pav" _ := .thiele (s := .pav) (by rw [he]; decide +kernel) (.inl rfl)
    (fun h => absurd h (by decide))
  constructor
  · obtain ⟨cs, cs', h1, h2, -, -, h3⟩ := C78_irresolute hw hw rfl exampleProfile_wf (renamedExample_wf one_pos) (renamingExample one_pos)
      { committeesize := 2, algorithm := "brute-force", resolute := false } rfl rfl hal hS (fun h => absurd h (by decide))
      (fun h => absurd h (by decide))
    refine ⟨cs, cs', h1, h2, ?_⟩
    have := h3 {1, 2}
    have e : (renamingExample one_pos).set {1, 2} = {0, 1} := by decide
    rwa [e] at this
  · exact C79_irresolute hw hw rfl exampleProfile_wf (by norm_num : 0 < 2)
      { committeesize := 2, algorithm := "brute-force", resolute := false } rfl rfl hal hS (by decide)

example (solve : Program → SolveResult) (solveMax : MaxProgram → SolveResult) (hs : ExactSolver solve) (hm : ExactMaxSolver solveMax) :
    check solve solveMax [] "priceability" (renamedExample 2) ([1, 0].map Int.ofNat) none "gurobi"
      = check solve solveMax [] "priceability" exampleProfile ([1, 2].map Int.ofNat) none "gurobi" :=
  C80_check hs hs hm hm [] [] exampleProfile_wf (renamedExample_wf two_pos) (renamingExample two_pos) (by decide) (by decide) (by decide)
    (by decide) (by decide) (by decide) (.inr rfl) (by decide)

end Abc
