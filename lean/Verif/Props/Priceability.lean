import Verif.Spec.Prices
import Verif.Props.CheckILP

/-!
# C69: the checks of priceability and stable priceability
-/

namespace Abc

open Spec

/-- Payments and budget described by a solution. -/
def solPay (p : Profile) (x : IVar → ℚ) : Fin p.voters.length → ℕ → ℚ := fun i c => if c < p.numCand then x (.assigned i c) else 0

theorem sum_candidates_pay (p : Profile) (x : IVar → ℚ) (i : Fin p.voters.length) :
    (LinExp.sum (p.candidates.map (fun c => LinExp.var (.assigned i c)))).eval x = ∑ c ∈ Finset.range p.numCand, solPay p x i c := by
  unfold Profile.candidates
  rw [LinExp.eval_sum, List.map_map, sum_range_map]
  refine Finset.sum_congr rfl fun c hc => ?_
  simp only [Function.comp, LinExp.eval_var, solPay, if_pos (Finset.mem_range.1 hc)]

theorem sum_voters_pay (p : Profile) (x : IVar → ℚ) {c : ℕ} (hc : c < p.numCand) :
    (LinExp.sum ((List.range p.voters.length).map (fun i => LinExp.var (.assigned i c)))).eval x = ∑ i, solPay p x i c := by
  rw [LinExp.eval_sum, List.map_map, sum_range_fin]
  refine Finset.sum_congr rfl fun i _ => ?_
  simp only [Function.comp, LinExp.eval_var, solPay, if_pos hc]

theorem leftOver_eval {p : Profile} {W : List ℕ} (hW : W.Nodup) (hlt : ∀ c ∈ W, c < p.numCand) (x : IVar → ℚ)
    (i : Fin p.voters.length) :
    (leftOver W (p.voters.get i) i).eval x = leftAfter p W.toFinset (x .value) (solPay p x) i := by
  unfold leftOver leftAfter
  rw [LinExp.eval_sub, LinExp.eval_scale, LinExp.eval_var, LinExp.eval_sum, List.map_map, List.sum_toFinset _ hW]
  congr 2
  refine List.map_congr_left fun c hc => ?_
  simp only [Function.comp, LinExp.eval_var, solPay, if_pos (hlt c hc)]

theorem sum_supporters (p : Profile) (c : ℕ) (g : Voter × ℕ → ℚ) :
    ((supportersOf p c).map g).sum = ∑ i with c ∈ appr p i, g (p.voters.get i, (i : ℕ)) := by
  classical
  unfold supportersOf
  have h1 : ∀ l : List (Voter × ℕ), ((l.filter (fun vi => decide (c ∈ vi.1.approved))).map g).sum =
      (l.map (fun vi => if c ∈ vi.1.approved then g vi else 0)).sum := by
    intro l
    induction l with
    | nil => rfl
    | cons a l ih =>
      by_cases h : c ∈ a.1.approved
      · simp [h, ih]
      · simp [h, ih]
  rw [h1, sum_zipIdx_rat, Finset.sum_filter]
  refine Finset.sum_congr rfl fun i _ => ?_
  simp only [mem_appr]

/-- Conditions 1 to 3 of a feasible solution. -/
theorem priceSystem_of_feasible {P : Program} {p : Profile} {W : List ℕ} (hlt : ∀ c ∈ W, c < p.numCand) {x : IVar → ℚ} (hx : Feasible P x)
    (hv : ∀ d ∈ priceVars p, d ∈ P.vars) (hc : ∀ c ∈ priceConstrs p W, c ∈ P.constrs) :
    PriceSystem p W.toFinset (x .value) (solPay p x) := by
  have hnn : ∀ i c, 0 ≤ solPay p x i c := by
    intro i c
    unfold solPay
    split
    · rename_i hlt
      exact (hx.1 _ (hv _ (List.mem_cons_of_mem _ (List.mem_flatMap.2 ⟨i, List.mem_range.2 i.2,
        List.mem_map.2 ⟨c, List.mem_range.2 hlt, rfl⟩⟩)))).1
    · exact le_rfl
  refine ⟨(hx.1 _ (hv _ List.mem_cons_self)).1, hnn, fun i c hne => ?_, fun i => ?_, fun c hcW => ?_, fun c hlt' hcW => ?_⟩
  · by_contra hno
    apply hne
    unfold solPay
    split
    · rename_i hlt'
      have := holds_plain.1 (hx.2 _ (hc _ (List.mem_append_left _ (List.mem_append_right _ (List.mem_flatMap.2 ⟨_, mem_zipIdx_get p i,
        List.mem_map.2 ⟨c, List.mem_filter.2 ⟨List.mem_range.2 hlt', by
          rw [decide_eq_true_iff]; exact fun h => hno (mem_appr.2 h)⟩, rfl⟩⟩)))))
      simpa only [RelHolds, LinExp.eval_var, LinExp.eval_num] using this
    · rfl
  · have := holds_plain.1 (hx.2 _ (hc _ (List.mem_append_left _ (List.mem_append_left _ (List.mem_map.2 ⟨_, mem_zipIdx_get p i, rfl⟩)))))
    simpa only [RelHolds, LinExp.eval_scale, LinExp.eval_var, sum_candidates_pay] using this
  · have hl := hlt c (List.mem_toFinset.1 hcW)
    have := holds_plain.1 (hx.2 _ (hc _ (List.mem_append_right _ (List.mem_map.2 ⟨c, List.mem_range.2 hl, rfl⟩))))
    simpa only [RelHolds, LinExp.eval_num, sum_voters_pay p x hl, if_pos (List.mem_toFinset.1 hcW)] using this
  · have := holds_plain.1 (hx.2 _ (hc _ (List.mem_append_right _ (List.mem_map.2 ⟨c, List.mem_range.2 hlt', rfl⟩))))
    simpa only [RelHolds, LinExp.eval_num, sum_voters_pay p x hlt', if_neg (fun h => hcW (List.mem_toFinset.2 h))] using this

/-- The values of the variables for a price system. -/
noncomputable def priceSolution (p : Profile) (W : Finset ℕ) (b : ℚ) (pay : Fin p.voters.length → ℕ → ℚ) : IVar → ℚ := by
  classical exact fun
    | .value => b
    | .assigned i c => if h : i < p.voters.length then pay ⟨i, h⟩ c else 0
    | .rest _ i => if h : i < p.voters.length then leftAfter p W b pay ⟨i, h⟩ else 0
    | .maxPayment _ i => if h : i < p.voters.length ∧ W.Nonempty then (W.image (pay ⟨i, h.1⟩)).max' (h.2.image _) else 0
    | .extremum _ i => if h : i < p.voters.length then
        (insert (leftAfter p W b pay ⟨i, h⟩) (W.image (pay ⟨i, h⟩))).max' (Finset.insert_nonempty _ _) else 0
    | _ => 0

section priceSolution
variable {p : Profile} {W : Finset ℕ} {b : ℚ} {pay : Fin p.voters.length → ℕ → ℚ}

theorem priceSolution_value : priceSolution p W b pay .value = b := rfl

theorem priceSolution_assigned (i : Fin p.voters.length) (c : ℕ) : priceSolution p W b pay (.assigned i c) = pay i c := by
  simp [priceSolution]

theorem priceSolution_rest (c : ℕ) (i : Fin p.voters.length) : priceSolution p W b pay (.rest c i) = leftAfter p W b pay i := by
  simp [priceSolution]

theorem priceSolution_maxPayment (hW : W.Nonempty) (c : ℕ) (i : Fin p.voters.length) :
    priceSolution p W b pay (.maxPayment c i) = (W.image (pay i)).max' (hW.image _) := by
  simp [priceSolution, hW]

theorem priceSolution_extremum (c : ℕ) (i : Fin p.voters.length) :
    priceSolution p W b pay (.extremum c i) =
      (insert (leftAfter p W b pay i) (W.image (pay i))).max' (Finset.insert_nonempty _ _) := by
  simp [priceSolution]

theorem priceSolution_solPay (hp : p.WF) (h : PriceSystem p W b pay) : solPay p (priceSolution p W b pay) = pay := by
  funext i c
  unfold solPay
  rw [priceSolution_assigned]
  split
  · rfl
  · rename_i hc
    by_contra hne
    exact hc (appr_lt hp (h.approved i c (fun e => hne e.symm)))

end priceSolution

theorem leftAfter_nonneg {p : Profile} {W : Finset ℕ} {b : ℚ} {pay : Fin p.voters.length → ℕ → ℚ} (hW : W ⊆ Finset.range p.numCand)
    (h : PriceSystem p W b pay) (i : Fin p.voters.length) : 0 ≤ leftAfter p W b pay i := by
  unfold leftAfter
  have := Finset.sum_le_sum_of_subset_of_nonneg hW (fun c _ _ => h.nonneg i c)
  linarith [h.budget i]

/-- A price system satisfies the constraints. -/
theorem feasible_of_priceSystem {p : Profile} (hp : p.WF) {W : List ℕ} {b : ℚ} {pay : Fin p.voters.length → ℕ → ℚ}
    (h : PriceSystem p W.toFinset b pay) :
    (∀ d ∈ priceVars p, InBounds (priceSolution p W.toFinset b pay) d) ∧
    ∀ c ∈ priceConstrs p W, Holds (priceSolution p W.toFinset b pay) c := by
  have hsp := priceSolution_solPay hp h
  refine ⟨fun d hd => ?_, fun c hc => ?_⟩
  · rcases List.mem_cons.1 hd with rfl | hd
    · exact ⟨h.budget_nonneg, by simp, by simp⟩
    · obtain ⟨i, hi, hd⟩ := List.mem_flatMap.1 hd
      obtain ⟨c, -, rfl⟩ := List.mem_map.1 hd
      refine ⟨?_, by simp, by simp⟩
      have := priceSolution_assigned (W := W.toFinset) (b := b) (pay := pay) ⟨i, List.mem_range.1 hi⟩ c
      change 0 ≤ priceSolution p W.toFinset b pay (.assigned i c)
      rw [this]
      exact h.nonneg _ _
  · rcases List.mem_append.1 hc with hc | hc
    · rcases List.mem_append.1 hc with hc | hc
      · obtain ⟨vi, hvi, rfl⟩ := List.mem_map.1 hc
        obtain ⟨i, rfl⟩ := zipIdx_get hvi
        rw [holds_plain]
        simp only [RelHolds, LinExp.eval_scale, LinExp.eval_var, sum_candidates_pay, hsp, priceSolution_value]
        exact h.budget i
      · obtain ⟨vi, hvi, hc⟩ := List.mem_flatMap.1 hc
        obtain ⟨i, rfl⟩ := zipIdx_get hvi
        obtain ⟨d, hd, rfl⟩ := List.mem_map.1 hc
        have hd' := (List.mem_filter.1 hd).2
        rw [decide_eq_true_iff] at hd'
        rw [holds_plain]
        simp only [RelHolds, LinExp.eval_num, LinExp.eval_var, priceSolution_assigned]
        by_contra hne
        exact hd' (mem_appr.1 (h.approved i d hne))
    · obtain ⟨c, hcm, rfl⟩ := List.mem_map.1 hc
      have hlt : c < p.numCand := List.mem_range.1 hcm
      rw [holds_plain]
      simp only [RelHolds, LinExp.eval_num, sum_voters_pay _ _ hlt, hsp]
      by_cases hcW : c ∈ W
      · rw [if_pos hcW, h.elected c (List.mem_toFinset.2 hcW)]
      · rw [if_neg hcW, h.other c hlt (fun h => hcW (List.mem_toFinset.1 h))]

/-- The program without maxima encodes priceability. -/
theorem priceProgram_sound {p : Profile} {W : List ℕ} (hW : W.Nodup) (hlt : ∀ c ∈ W, c < p.numCand) {x : IVar → ℚ}
    (hx : Feasible (priceProgram p W) x) : SupportedBy false p W.toFinset (x .value) (solPay p x) := by
  refine ⟨priceSystem_of_feasible hlt hx (fun d hd => hd) (fun c hc => List.mem_append_left _ hc),
    fun c hc hcW => ?_⟩
  have := holds_plain.1 (hx.2 _ (List.mem_append_right _ (List.mem_map.2 ⟨c, List.mem_filter.2 ⟨List.mem_range.2 hc, by
    rw [decide_eq_true_iff]; exact fun h => hcW (List.mem_toFinset.2 h)⟩, rfl⟩)))
  simp only [RelHolds, LinExp.eval_num, LinExp.eval_sum, List.map_map] at this
  rw [sum_supporters] at this
  simpa only [Function.comp, leftOver_eval hW hlt, Bool.false_eq_true, if_false] using this

theorem priceProgram_complete {p : Profile} (hp : p.WF) {W : List ℕ} (hW : W.Nodup) (hlt : ∀ c ∈ W, c < p.numCand) {b : ℚ}
    {pay : Fin p.voters.length → ℕ → ℚ} (h : SupportedBy false p W.toFinset b pay) :
    Feasible (priceProgram p W) (priceSolution p W.toFinset b pay) := by
  obtain ⟨h, hleft⟩ := h
  obtain ⟨f1, f2⟩ := feasible_of_priceSystem hp h
  refine ⟨f1, fun c hc => ?_⟩
  rcases List.mem_append.1 hc with hc | hc
  · exact f2 c hc
  · obtain ⟨c, hcm, rfl⟩ := List.mem_map.1 hc
    obtain ⟨hc1, hc2⟩ := List.mem_filter.1 hcm
    rw [decide_eq_true_iff] at hc2
    rw [holds_plain]
    simp only [RelHolds, LinExp.eval_num, LinExp.eval_sum, List.map_map]
    rw [sum_supporters]
    simp only [Function.comp, leftOver_eval hW hlt, priceSolution_solPay hp h, priceSolution_value]
    exact hleft c (List.mem_range.1 hc1) (fun h => hc2 (List.mem_toFinset.1 h))

theorem priceProgram_iff {p : Profile} (hp : p.WF) {W : List ℕ} (hW : W.Nodup) (hlt : ∀ c ∈ W, c < p.numCand) :
    (∃ x, Feasible (priceProgram p W) x) ↔ Priceable p W.toFinset :=
  ⟨fun ⟨_, hx⟩ => ⟨_, _, priceProgram_sound hW hlt hx⟩, fun ⟨_, _, h⟩ => ⟨_, priceProgram_complete hp hW hlt h⟩⟩

theorem mem_supporters {p : Profile} {c : ℕ} {i : Fin p.voters.length} (h : c ∈ appr p i) :
    (p.voters.get i, (i : ℕ)) ∈ supportersOf p c :=
  List.mem_filter.2 ⟨mem_zipIdx_get p i, by rw [decide_eq_true_iff]; exact mem_appr.1 h⟩

theorem supporters_get {p : Profile} {c : ℕ} {vi : Voter × ℕ} (h : vi ∈ supportersOf p c) :
    ∃ i : Fin p.voters.length, vi = (p.voters.get i, (i : ℕ)) ∧ c ∈ appr p i := by
  obtain ⟨h1, h2⟩ := List.mem_filter.1 h
  obtain ⟨i, rfl⟩ := zipIdx_get h1
  rw [decide_eq_true_iff] at h2
  exact ⟨i, rfl, mem_appr.2 h2⟩

theorem mem_nonMembers {p : Profile} {W : List ℕ} {c : ℕ} : c ∈ nonMembers p W ↔ c < p.numCand ∧ c ∉ W.toFinset := by
  unfold nonMembers Profile.candidates
  rw [List.mem_filter, List.mem_range, decide_eq_true_iff, List.mem_toFinset]

theorem stableProgram_sound {p : Profile} {W : List ℕ} (hW : W.Nodup) (hlt : ∀ c ∈ W, c < p.numCand) {x : IVar → ℚ}
    (hx : MaxFeasible (stableProgram p W) x) : SupportedBy true p W.toFinset (x .value) (solPay p x) := by
  classical
  obtain ⟨hx, hm⟩ := hx
  refine ⟨priceSystem_of_feasible hlt hx (fun d hd => List.mem_append_left _ hd)
    (fun c hc => List.mem_append_left _ hc), fun c hc hcW => ?_⟩
  have hcN : c ∈ nonMembers p W := mem_nonMembers.2 ⟨hc, hcW⟩
  have h1 := holds_plain.1 (hx.2 _ (List.mem_append_right _ (List.mem_flatMap.2 ⟨c, hcN, List.mem_append_right _ List.mem_cons_self⟩)))
  simp only [RelHolds, LinExp.eval_num, LinExp.eval_sum, List.map_map] at h1
  rw [sum_supporters] at h1
  refine le_trans (Finset.sum_le_sum fun i hi => ?_) h1
  have hci := (Finset.mem_filter.1 hi).2
  simp only [Function.comp, LinExp.eval_var]
  have hrest := holds_plain.1 (hx.2 _ (List.mem_append_right _ (List.mem_flatMap.2 ⟨c, hcN, List.mem_append_left _
    (List.mem_map.2 ⟨_, mem_supporters hci, rfl⟩)⟩)))
  simp only [RelHolds, LinExp.eval_var, leftOver_eval hW hlt] at hrest
  obtain ⟨-, hm1⟩ := hm _ (List.mem_flatMap.2 ⟨c, hcN, List.mem_flatMap.2 ⟨_, mem_supporters hci, List.mem_cons_self⟩⟩)
  obtain ⟨-, hm2⟩ := hm _ (List.mem_flatMap.2 ⟨c, hcN, List.mem_flatMap.2 ⟨_, mem_supporters hci,
    List.mem_cons_of_mem _ List.mem_cons_self⟩⟩)
  have hm2a := hm2 _ List.mem_cons_self
  have hm2b := hm2 _ (List.mem_cons_of_mem _ List.mem_cons_self)
  refine Finset.max'_le _ _ _ fun y hy => ?_
  rcases Finset.mem_insert.1 hy with rfl | hy
  · rw [← hrest]; exact hm2b
  · obtain ⟨d, hd, rfl⟩ := Finset.mem_image.1 hy
    have hd' := List.mem_toFinset.1 hd
    have := hm1 _ (List.mem_map.2 ⟨d, hd', rfl⟩)
    simp only [solPay, if_pos (hlt d hd')]
    exact this.trans hm2a

theorem stableProgram_complete {p : Profile} (hp : p.WF) {W : List ℕ} (hW : W.Nodup) (hlt : ∀ c ∈ W, c < p.numCand) (hne : W ≠ [])
    {b : ℚ} {pay : Fin p.voters.length → ℕ → ℚ} (h : SupportedBy true p W.toFinset b pay) :
    MaxFeasible (stableProgram p W) (priceSolution p W.toFinset b pay) := by
  classical
  have hneF : W.toFinset.Nonempty := by
    obtain ⟨c, hc⟩ := List.exists_mem_of_ne_nil _ hne
    exact ⟨c, List.mem_toFinset.2 hc⟩
  obtain ⟨h, hleft⟩ := h
  obtain ⟨f1, f2⟩ := feasible_of_priceSystem hp h
  have hsub : W.toFinset ⊆ Finset.range p.numCand := fun c hc => Finset.mem_range.2 (hlt c (List.mem_toFinset.1 hc))
  have hla := leftAfter_nonneg hsub h
  refine ⟨⟨fun d hd => ?_, fun c hc => ?_⟩, fun m hm => ?_⟩
  · rcases List.mem_append.1 hd with hd | hd
    · exact f1 d hd
    · obtain ⟨c, hc, hd⟩ := List.mem_flatMap.1 hd
      obtain ⟨vi, hvi, hd⟩ := List.mem_flatMap.1 hd
      obtain ⟨i, rfl, hci⟩ := supporters_get hvi
      simp only [List.mem_cons, List.not_mem_nil, or_false] at hd
      rcases hd with rfl | rfl | rfl <;> refine ⟨?_, by simp, by simp⟩ <;> dsimp only
      · rw [priceSolution_extremum]
        exact (hla i).trans (Finset.le_max' _ _ (Finset.mem_insert_self _ _))
      · rw [priceSolution_rest]
        exact hla i
      · rw [priceSolution_maxPayment hneF]
        obtain ⟨d, hd⟩ := hneF
        exact (h.nonneg i d).trans (Finset.le_max' _ _ (Finset.mem_image_of_mem _ hd))
  · rcases List.mem_append.1 hc with hc | hc
    · exact f2 c hc
    · obtain ⟨c, hcN, hc⟩ := List.mem_flatMap.1 hc
      rcases List.mem_append.1 hc with hc | hc
      · obtain ⟨vi, hvi, rfl⟩ := List.mem_map.1 hc
        obtain ⟨i, rfl, hci⟩ := supporters_get hvi
        rw [holds_plain]
        simp only [RelHolds, LinExp.eval_var, leftOver_eval hW hlt, priceSolution_rest, priceSolution_solPay hp h, priceSolution_value]
      · simp only [List.mem_singleton] at hc
        subst hc
        rw [holds_plain]
        simp only [RelHolds, LinExp.eval_num, LinExp.eval_sum, List.map_map]
        rw [sum_supporters]
        simp only [Function.comp, LinExp.eval_var, priceSolution_extremum]
        exact hleft c (mem_nonMembers.1 hcN).1 (mem_nonMembers.1 hcN).2
  · obtain ⟨c, hcN, hm⟩ := List.mem_flatMap.1 hm
    obtain ⟨vi, hvi, hm⟩ := List.mem_flatMap.1 hm
    obtain ⟨i, rfl, hci⟩ := supporters_get hvi
    simp only [List.mem_cons, List.not_mem_nil, or_false] at hm
    rcases hm with rfl | rfl
    · dsimp only
      rw [priceSolution_maxPayment hneF]
      constructor
      · obtain ⟨d, hd, e⟩ := Finset.mem_image.1 (Finset.max'_mem _ (hneF.image (pay i)))
        exact ⟨_, List.mem_map.2 ⟨d, List.mem_toFinset.1 hd, rfl⟩, by rw [priceSolution_assigned]; exact e.symm⟩
      · intro z hz
        obtain ⟨d, hd, rfl⟩ := List.mem_map.1 hz
        rw [priceSolution_assigned]
        exact Finset.le_max' _ _ (Finset.mem_image_of_mem _ (List.mem_toFinset.2 hd))
    · dsimp only
      rw [priceSolution_extremum]
      have hins := Finset.max'_insert (leftAfter p W.toFinset b pay i) (W.toFinset.image (pay i)) (hneF.image _)
      constructor
      · rcases le_total ((W.toFinset.image (pay i)).max' (hneF.image _)) (leftAfter p W.toFinset b pay i) with hle | hle
        · refine ⟨_, List.mem_cons_of_mem _ List.mem_cons_self, ?_⟩
          rw [priceSolution_rest, hins]
          simp [hle]
        · refine ⟨_, List.mem_cons_self, ?_⟩
          rw [priceSolution_maxPayment hneF, hins]
          simp [hle]
      · intro z hz
        simp only [List.mem_cons, List.not_mem_nil, or_false] at hz
        rcases hz with rfl | rfl
        · rw [priceSolution_maxPayment hneF]
          exact Finset.max'_subset _ (Finset.subset_insert _ _)
        · rw [priceSolution_rest]
          exact Finset.le_max' _ _ (Finset.mem_insert_self _ _)

/-- The program with maxima encodes stable priceability. -/
theorem stableProgram_iff {p : Profile} (hp : p.WF) {W : List ℕ} (hW : W.Nodup) (hlt : ∀ c ∈ W, c < p.numCand) (hne : W ≠ []) :
    (∃ x, MaxFeasible (stableProgram p W) x) ↔ StablePriceable p W.toFinset :=
  ⟨fun ⟨_, hx⟩ => ⟨_, _, stableProgram_sound hW hlt hx⟩, fun ⟨_, _, h⟩ => ⟨_, stableProgram_complete hp hW hlt hne h⟩⟩

/-- Programs with maxima also have optimal solutions. -/
theorem polyUnion_maxFeasible {P : MaxProgram} (h : Finitary P.base) : PolyUnion (MaxFeasible P) := by
  refine ((polyUnion_feasible h).and (polyUnion_forall P.maxes (fun m x => (∃ z ∈ m.2, x m.1 = x z) ∧ ∀ z ∈ m.2, x z ≤ x m.1)
    fun m _ => ?_)).congr fun x => Iff.rfl
  refine ((polyUnion_exists m.2 (fun z x => x m.1 = x z) fun z _ => ?_).and (polyUnion_forall m.2 (fun z x => x z ≤ x m.1) fun z _ => ?_))
  · exact (polyUnion_eq (.var m.1) (.var z)).congr fun x => by simp
  · exact (polyUnion_le (.var z) (.var m.1)).congr fun x => by simp

theorem priceConstrs_guard {p : Profile} {W : List ℕ} : ∀ c ∈ priceConstrs p W, c.guard = none := by
  intro c hc
  rcases List.mem_append.1 hc with hc | hc
  · rcases List.mem_append.1 hc with hc | hc
    · obtain ⟨vi, -, rfl⟩ := List.mem_map.1 hc; rfl
    · obtain ⟨vi, -, hc⟩ := List.mem_flatMap.1 hc
      obtain ⟨d, -, rfl⟩ := List.mem_map.1 hc; rfl
  · obtain ⟨c, -, rfl⟩ := List.mem_map.1 hc; rfl

theorem priceVars_continuous {p : Profile} : ∀ d ∈ priceVars p, d.integer = false := by
  intro d hd
  rcases List.mem_cons.1 hd with rfl | hd
  · rfl
  · obtain ⟨i, -, hd⟩ := List.mem_flatMap.1 hd
    obtain ⟨c, -, rfl⟩ := List.mem_map.1 hd; rfl

theorem priceProgram_finitary (p : Profile) (W : List ℕ) : Finitary (priceProgram p W) := by
  refine ⟨fun d hd hi => by rw [priceVars_continuous d hd] at hi; simp at hi, fun c hc b hb => ?_⟩
  have : c.guard = none := by
    rcases List.mem_append.1 hc with hc | hc
    · exact priceConstrs_guard c hc
    · obtain ⟨c, -, rfl⟩ := List.mem_map.1 hc; rfl
  rw [this] at hb
  simp at hb

theorem stableProgram_finitary (p : Profile) (W : List ℕ) : Finitary (stableProgram p W).base := by
  refine ⟨fun d hd hi => ?_, fun c hc b hb => ?_⟩
  · have : d.integer = false := by
      rcases List.mem_append.1 hd with hd | hd
      · exact priceVars_continuous d hd
      · obtain ⟨c, -, hd⟩ := List.mem_flatMap.1 hd
        obtain ⟨vi, -, hd⟩ := List.mem_flatMap.1 hd
        simp only [List.mem_cons, List.not_mem_nil, or_false] at hd
        rcases hd with rfl | rfl | rfl <;> rfl
    rw [this] at hi
    simp at hi
  · have : c.guard = none := by
      rcases List.mem_append.1 hc with hc | hc
      · exact priceConstrs_guard c hc
      · obtain ⟨c, -, hc⟩ := List.mem_flatMap.1 hc
        rcases List.mem_append.1 hc with hc | hc
        · obtain ⟨vi, -, rfl⟩ := List.mem_map.1 hc; rfl
        · simp only [List.mem_singleton] at hc
          subst hc; rfl
    rw [this] at hb
    simp at hb

/-- **C69** `check_priceability` and `check_stable_priceability` decide (stable) priceability; if fewer candidates are approved than
elected they return whether all approved candidates are elected. -/
theorem C69_check_priceability {solve : Program → SolveResult} {solveMax : MaxProgram → SolveResult} (hs : ExactSolver solve)
    (hm : ExactMaxSolver solveMax) (p : Profile) (hp : p.WF) (W : List ℕ) (hW : W.Nodup) (hlt : ∀ c ∈ W, c < p.numCand) (hne : W ≠ [])
    (algorithm : String) (ha : algorithm = "fastest" ∨ algorithm = "gurobi") (stable : Bool) :
    ∃ b, checkPriceability solve solveMax p (W.map Int.ofNat) algorithm stable = .ok b ∧
      (b = true ↔ PriceableOrFull stable p W.toFinset) := by
  classical
  unfold checkPriceability
  rw [candidateSet_ofNat hW hlt]
  simp only [bind, Except.bind, if_pos ha]
  have hV : (sortNat W).Nodup := sortNat_nodup.2 hW
  have hVW : (sortNat W).toFinset = W.toFinset := sortNat_toFinset W
  have hVlt : ∀ c ∈ sortNat W, c < p.numCand := fun c hc => hlt c (by
    have : c ∈ (sortNat W).toFinset := List.mem_toFinset.2 hc
    rw [hVW] at this
    exact List.mem_toFinset.1 this)
  have hVne : sortNat W ≠ [] := by
    intro h
    rw [h] at hVW
    apply hne
    simpa using hVW.symm
  rw [← hVW]
  generalize sortNat W = V at hV hVlt hVne
  -- the approved candidates
  have hap : ((p.candidates.filter (fun c => p.voters.any (fun v => decide (c ∈ v.approved)))).Nodup) ∧
      ∀ c, c ∈ p.candidates.filter (fun c => p.voters.any (fun v => decide (c ∈ v.approved))) ↔ c ∈ approvedSet p := by
    refine ⟨List.nodup_range.filter _, fun c => ?_⟩
    unfold approvedSet Profile.candidates
    simp only [List.mem_filter, List.mem_range, List.any_eq_true, decide_eq_true_iff, Finset.mem_biUnion, Finset.mem_univ, true_and]
    constructor
    · rintro ⟨-, v, hv, hc⟩
      obtain ⟨i, rfl⟩ := List.mem_iff_get.1 hv
      exact ⟨i, mem_appr.2 hc⟩
    · rintro ⟨i, hi⟩
      exact ⟨appr_lt hp hi, _, List.get_mem _ i, mem_appr.1 hi⟩
  obtain ⟨hapn, hapm⟩ := hap
  unfold checkPriceabilityGurobi PriceableOrFull
  generalize hA : p.candidates.filter (fun c => p.voters.any (fun v => decide (c ∈ v.approved))) = A at hapn hapm
  have hAl : A.length = (approvedSet p).card := by
    rw [← List.toFinset_card_of_nodup hapn]
    congr 1
    ext c
    rw [List.mem_toFinset, hapm]
  have hVl : V.length = V.toFinset.card := (List.toFinset_card_of_nodup hV).symm
  dsimp only
  rw [hAl, hVl]
  by_cases hfew : (approvedSet p).card < V.toFinset.card
  · rw [if_pos hfew, if_pos hfew]
    refine ⟨_, rfl, ?_⟩
    rw [List.all_eq_true]
    simp only [decide_eq_true_iff]
    exact ⟨fun h c hc => List.mem_toFinset.2 (h c ((hapm c).2 hc)), fun h c hc => List.mem_toFinset.1 (h ((hapm c).1 hc))⟩
  · rw [if_neg hfew, if_neg hfew]
    have hvo : ¬ (p.voters = [] ∧ p.candidates ≠ []) := by
      rintro ⟨he, -⟩
      have h0 : approvedSet p = ∅ := by
        unfold approvedSet
        refine Finset.eq_empty_of_forall_notMem fun c hc => ?_
        obtain ⟨i, -, -⟩ := Finset.mem_biUnion.1 hc
        exact absurd i.2 (by simp [he])
      rw [h0] at hfew
      have : V.toFinset.Nonempty := by
        obtain ⟨c, hc⟩ := List.exists_mem_of_ne_nil V hVne
        exact ⟨c, List.mem_toFinset.2 hc⟩
      exact hfew (by simpa using this)
    simp only [if_neg hvo]
    cases stable with
    | false =>
      simp only [Bool.false_eq_true, if_false]
      have hbound : ∀ x, Feasible (priceProgram p V) x → (priceProgram p V).obj.eval x ≤ 0 := by
        intro x hx
        have := (hx.1 _ List.mem_cons_self).1
        change (0 : ℚ) ≤ x .value at this
        change LinExp.eval x (LinExp.scale (-1) (.var .value)) ≤ 0
        rw [LinExp.eval_scale, LinExp.eval_var]
        linarith
      rcases solve_iff hs (priceProgram_finitary p V) hbound with ⟨x, e, hx⟩ | ⟨e, hx⟩
      · rw [e]
        exact ⟨true, rfl, by simpa using (priceProgram_iff hp hV hVlt).1 ⟨x, hx.1⟩⟩
      · rw [e]
        exact ⟨false, rfl, by rw [priceProgram_iff hp hV hVlt] at hx; simpa using hx⟩
    | true =>
      simp only [if_true]
      have hbound : ∀ x, MaxFeasible (stableProgram p V) x → (stableProgram p V).base.obj.eval x ≤ 0 := by
        intro x hx
        have := (hx.1.1 _ List.mem_cons_self).1
        change (0 : ℚ) ≤ x .value at this
        change LinExp.eval x (LinExp.scale (-1) (.var .value)) ≤ 0
        rw [LinExp.eval_scale, LinExp.eval_var]
        linarith
      by_cases hf : ∃ x, MaxFeasible (stableProgram p V) x
      · obtain ⟨x, e, hx⟩ := (hm _).1 ((polyUnion_maxFeasible (stableProgram_finitary p V)).optimum hf hbound)
        rw [e]
        exact ⟨true, rfl, by simpa using (stableProgram_iff hp hV hVlt hVne).1 ⟨x, hx.1⟩⟩
      · rw [(hm _).2 hf]
        exact ⟨false, rfl, by rw [stableProgram_iff hp hV hVlt hVne] at hf; simpa using hf⟩

/-- If fewer candidates are approved than elected there is no price system at all, whatever the budget. -/
theorem C69_no_price_system {p : Profile} {W : Finset ℕ} (h : (approvedSet p).card < W.card) (b : ℚ) (pay : Fin p.voters.length → ℕ → ℚ) :
    ¬ PriceSystem p W b pay := by
  intro hps
  obtain ⟨c, hc, hn⟩ : ∃ c ∈ W, c ∉ approvedSet p := by
    by_contra hno
    push Not at hno
    exact absurd (Finset.card_le_card hno) (by omega)
  have h1 := hps.elected c hc
  rw [Finset.sum_eq_zero] at h1
  · norm_num at h1
  · intro i _
    by_contra hne
    exact hn (Finset.mem_biUnion.2 ⟨i, Finset.mem_univ _, hps.approved i c hne⟩)

/-- Stable priceability implies priceability. -/
theorem C69_stable_priceable {p : Profile} {W : Finset ℕ} (h : StablePriceable p W) : Priceable p W := by
  obtain ⟨b, pay, hps, hs⟩ := h
  refine ⟨b, pay, hps, fun c hc hcW => le_trans (Finset.sum_le_sum fun i _ => ?_) (hs c hc hcW)⟩
  exact Finset.le_max' _ _ (Finset.mem_insert_self _ _)

end Abc
