import Verif.Lemmas.Renaming
import Verif.Props.EqualSharesAxioms

/-!
# Equal Shares, load-balancing rules and elimination rules commute with renaming
-/

namespace Abc
open Spec

variable {s : ℚ} {p p' : Profile}

/-! ## Equal Shares -/

/-- The same number for every voter. -/
def Moved (R : Renaming s p p') (x : VoterMap p) (x' : VoterMap p') : Prop := ∀ i, x' (R.voter i) = x i

theorem payments_rename (R : Renaming s p p') {b : VoterMap p} {b' : VoterMap p'} (h : Moved R b b') (c : ℕ) (q : ℚ) :
    payments p' b' (R.cand c) q = payments p b c (s * q) := by
  unfold payments
  rw [R.backers, R.sum_group]
  refine Finset.sum_congr rfl fun i _ => ?_
  rw [h i, R.weight, ← mul_assoc, mul_comm q]

theorem isPrice_rename (R : Renaming s p p') {b : VoterMap p} {b' : VoterMap p'} (h : Moved R b b') (c : ℕ) (q : ℚ) :
    IsPrice p' b' (R.cand c) q ↔ IsPrice p b c (s * q) := by
  unfold IsPrice
  rw [payments_rename R h]
  refine and_congr_right fun _ => ⟨fun h2 q' hq' => ?_, fun h2 q' hq' => ?_⟩
  · have := h2 (s⁻¹ * q') (by rw [inv_mul_lt_iff₀ R.pos]; exact hq')
    rwa [payments_rename R h, mul_inv_cancel_left₀ R.pos.ne'] at this
  · rw [payments_rename R h]
    exact h2 _ (R.mul_lt.2 hq')

theorem affordable_rename (R : Renaming s p p') {b : VoterMap p} {b' : VoterMap p'} (h : Moved R b b') (c : ℕ) :
    Affordable p' b' (R.cand c) ↔ Affordable p b c := by
  unfold Affordable
  rw [R.backers, R.sum_group, Finset.sum_congr rfl fun i _ => h i]

theorem mesBest_rename (R : Renaming s p p') (W : List ℕ) (b : VoterMap p) (b' : VoterMap p') (c : ℕ) (h : Moved R b b')
    (hB : MESBest p W b c) : MESBest p' (W.map R.cand) b' (R.cand c) := by
  obtain ⟨h1, h2, q, h3, h4⟩ := hB
  refine ⟨(R.lt' c).2 h1, fun e => h2 (R.mem_list.1 e), s⁻¹ * q, ?_, R.forall_cand.2 fun d hd hdW q' hq' => ?_⟩
  · rw [isPrice_rename R h, mul_inv_cancel_left₀ R.pos.ne']
    exact h3
  · rw [inv_mul_le_iff₀ R.pos]
    exact h4 d ((R.lt' d).1 hd) (fun e => hdW (R.mem_list.2 e)) _ ((isPrice_rename R h d q').1 hq')

theorem mesUpd_rename (R : Renaming s p p') (W : List ℕ) (b : VoterMap p) (b' : VoterMap p') (c : ℕ) (h : Moved R b b')
    (hB : MESBest p W b c) : Moved R (mesUpd p W b c) (mesUpd p' (W.map R.cand) b' (R.cand c)) := by
  intro i
  obtain ⟨-, -, q, h3, -⟩ := hB
  have h3' : IsPrice p' b' (R.cand c) (s⁻¹ * q) := by
    rw [isPrice_rename R h, mul_inv_cancel_left₀ R.pos.ne']
    exact h3
  unfold mesUpd
  rw [price_eq h3, price_eq h3', h i, R.weight]
  have : s⁻¹ * q * (s * (p.voters.get i).weight) = q * (p.voters.get i).weight := by
    have := R.pos.ne'
    field_simp
  rw [this]
  by_cases hi : i ∈ backers p c
  · rw [if_pos ((mem_backers_rename R c i).2 hi), if_pos hi]
  · rw [if_neg (fun e => hi ((mem_backers_rename R c i).1 e)), if_neg hi]

theorem mesDone_rename (R : Renaming s p p') {W : List ℕ} {b : VoterMap p} {b' : VoterMap p'} (h : Moved R b b')
    (hD : MESDone p W b) : MESDone p' (W.map R.cand) b' :=
  R.forall_cand.2 fun d hd hdW ha =>
    hD d ((R.lt' d).1 hd) (fun e => hdW (R.mem_list.2 e)) ((affordable_rename R h d).1 ha)

theorem budgetOf_rename (R : Renaming s p p') (x : ℚ) : Moved R (budgetOf p (x / total p)) (budgetOf p' (x / total p')) := by
  intro i
  unfold budgetOf
  rw [R.total, R.weight]
  have := R.pos.ne'
  by_cases ht : total p = 0
  · simp [ht]
  · field_simp

theorem completed_rename (R : Renaming s p p') {k : ℕ} {completion : Completion} {W : List ℕ} {b : VoterMap p} {b' : VoterMap p'}
    (h : Moved R b b') {A : Finset ℕ} (hC : Completed p k completion W b A) :
    Completed p' k completion (W.map R.cand) b' (R.set A) := by
  cases completion with
  | none =>
    change R.set A = _
    rw [R.set_toFinset]
    exact congrArg _ hC
  | seqphragmen =>
    obtain ⟨V, x, h1, h2, rfl⟩ := hC
    obtain ⟨x', h3, -⟩ := Spec.Run.rename R.cand (Scaled R s⁻¹) (phragBest_rename R)
      (fun W x x' c h _ => phragUpd_rename R W x x' c h)
      (s₀' := fun i => - b' i / (p'.voters.get i).weight) (fun i => by
        change - b' (R.voter i) / _ = _
        rw [h i, R.weight, inv_mul_eq_div, div_div, mul_comm s]) h1
    exact ⟨_, x', h3, by rw [List.length_map, h2], R.set_toFinset V⟩
  | av =>
    obtain ⟨h1, h2, h3⟩ := hC
    refine ⟨R.isCommittee.2 h1, by rw [R.set_toFinset, R.set_subset]; exact h2, R.forall_set.2 fun B hB hWB => ?_⟩
    rw [R.set_toFinset, R.set_subset] at hWB
    rw [R.sum_set, R.sum_set, Finset.sum_congr rfl fun c _ => R.candScore .av c,
      Finset.sum_congr rfl fun c _ => R.candScore .av c, ← Finset.mul_sum, ← Finset.mul_sum, R.mul_le]
    exact h3 B (R.isCommittee.1 hB) hWB
  | increment => exact hC
  | other => exact hC

theorem Spec.MESWinner.rename (R : Renaming s p p') {k : ℕ} {completion : Completion} {x : ℚ} {A : Finset ℕ}
    (h : MESWinner p k completion (x / total p) A) : MESWinner p' k completion (x / total p') (R.set A) := by
  obtain ⟨W, b, h1, h2⟩ := h
  obtain ⟨b', h3, hb⟩ := Spec.Run.rename R.cand (Moved R) (mesBest_rename R) (mesUpd_rename R) (budgetOf_rename R x) h1
  refine ⟨_, b', h3, ?_⟩
  rw [List.length_map, R.set_toFinset]
  rcases h2 with ⟨h2, rfl⟩ | ⟨h2, h4, h5⟩
  · exact .inl ⟨h2, rfl⟩
  · exact .inr ⟨h2, mesDone_rename R hb h4, completed_rename R hb h5⟩

theorem Spec.RunFirst.rename {σ σ' : Type} {Best : List ℕ → σ → ℕ → Prop} {Best' : List ℕ → σ' → ℕ → Prop}
    {upd : List ℕ → σ → ℕ → σ} {upd' : List ℕ → σ' → ℕ → σ'} (Rel : σ → σ' → Prop)
    (hb : ∀ W s s' c, Rel s s' → (Best W s c ↔ Best' W s' c))
    (hu : ∀ W s s' c, Rel s s' → Best W s c → Rel (upd W s c) (upd' W s' c))
    {W₀ : List ℕ} {s₀ : σ} {s₀' : σ'} (h0 : Rel s₀ s₀') {W : List ℕ} {s : σ} (h : RunFirst Best upd W₀ s₀ W s) :
    ∃ s', RunFirst Best' upd' W₀ s₀' W s' ∧ Rel s s' := by
  induction h with
  | start => exact ⟨_, .start, h0⟩
  | step _ hB hd ih =>
    obtain ⟨s', h1, h2⟩ := ih
    exact ⟨_, .step h1 ((hb _ _ _ _ h2).1 hB) fun d hdc hd' => hd d hdc ((hb _ _ _ _ h2).2 hd'), hu _ _ _ _ h2 hB⟩

theorem cand_one {R : Renaming s p p'} (hR : R.cand = Equiv.refl ℕ) (A : Finset ℕ) : R.set A = A := by
  unfold Renaming.set
  rw [hR]
  ext x
  simp

theorem firstOutcome_rename (R : Renaming s p p') (hR : R.cand = Equiv.refl ℕ) {k : ℕ} {x : ℚ} {W : List ℕ}
    (h : FirstOutcome p k (x / total p) W) : FirstOutcome p' k (x / total p') W := by
  have hid : ∀ V : List ℕ, V.map R.cand = V := fun V => by rw [hR]; exact List.map_id V
  have hid' : ∀ V : List ℕ, V.map R.symm.cand = V := fun V => by
    have : R.symm.cand = Equiv.refl ℕ := by change R.cand.symm = _; rw [hR]; rfl
    rw [this]; exact List.map_id V
  obtain ⟨b, h1, h2⟩ := h
  obtain ⟨b', h3, hb⟩ := Spec.RunFirst.rename (Best' := MESBest p') (upd' := mesUpd p') (Moved R)
    (fun V b b' c hm => by
      constructor
      · intro hB
        have := mesBest_rename R V b b' c hm hB
        rwa [hid, hR] at this
      · intro hB
        have := mesBest_rename R.symm V b' b c (fun i => by
          have := hm (R.symm.voter i)
          rw [← this]
          exact congrArg b' (R.voter.apply_symm_apply i)) hB
        have hc : R.symm.cand c = c := by change R.cand.symm c = c; rw [hR]; rfl
        rwa [hid', hc] at this)
    (fun V b b' c hm hB => by
      have := mesUpd_rename R V b b' c hm hB
      rwa [hid, hR] at this)
    (budgetOf_rename R x) h1
  refine ⟨b', h3, h2.imp id fun h => ⟨h.1, ?_⟩⟩
  have := mesDone_rename R hb h.2
  rwa [hid] at this

theorem approvedSet_rename (R : Renaming s p p') : approvedSet p' = R.set (approvedSet p) := by
  ext x
  obtain ⟨d, rfl⟩ := R.cand.surjective x
  unfold approvedSet
  rw [R.mem_set]
  simp only [Finset.mem_biUnion, Finset.mem_univ, true_and, R.voter.surjective.exists, R.approves]

theorem Spec.IncrementWinner.rename (R : Renaming s p p') (hR : R.cand = Equiv.refl ℕ) {k : ℕ} {A : Finset ℕ} (h : IncrementWinner p k A) :
    IncrementWinner p' k (R.set A) := by
  unfold IncrementWinner
  rw [approvedSet_rename R, R.card_set]
  rcases h with ⟨h1, h2, h3⟩ | ⟨h1, inc, W, h2, h3, h4, rfl, h5⟩
  · refine .inl ⟨h1, h2.rename R, R.forall_voter.2 fun i => ?_⟩
    rw [R.appr_voter, R.set_subset]
    exact h3 i
  · refine .inr ⟨h1, inc, W, h2, firstOutcome_rename R hR h3, h4, (cand_one hR _).symm, fun j hj hji => ?_⟩
    obtain ⟨V, h6, h7⟩ := h5 j hj hji
    exact ⟨V, firstOutcome_rename R hR h6, h7⟩

/-! ## Load-balancing rules -/

theorem isLoadDistribution_rename (R : Renaming s p p') {A : Finset ℕ} {x : Fin p.voters.length → ℕ → ℚ}
    (h : IsLoadDistribution p A x) :
    IsLoadDistribution p' (R.set A) (fun i c => s⁻¹ * x (R.voter.symm i) (R.cand.symm c)) where
  nonneg i c := mul_nonneg R.symm.pos.le (h.nonneg _ _)
  approved := by
    refine R.forall_voter.2 fun i => R.forall_cand.2 fun c hne => ?_
    rw [R.approves, R.mem_set]
    refine h.approved i c fun h0 => hne ?_
    simp [h0]
  one := by
    refine R.forall_cand.2 fun c hc => ?_
    rw [R.sum_voters, ← h.one c (R.mem_set.1 hc)]
    refine Finset.sum_congr rfl fun i _ => ?_
    rw [R.weight]
    simp only [Equiv.symm_apply_apply]
    have := R.pos.ne'
    field_simp

theorem loadOf_rename (R : Renaming s p p') (A : Finset ℕ) (x : Fin p.voters.length → ℕ → ℚ) (i : Fin p.voters.length) :
    loadOf p' (R.set A) (fun i c => s⁻¹ * x (R.voter.symm i) (R.cand.symm c)) (R.voter i) = s⁻¹ * loadOf p A x i := by
  unfold loadOf
  rw [R.sum_set, Finset.mul_sum]
  simp

theorem loadWithin_rename (R : Renaming s p p') {A : Finset ℕ} {t : ℚ} (h : LoadWithin p A t) :
    LoadWithin p' (R.set A) (s⁻¹ * t) := by
  obtain ⟨x, h1, h2⟩ := h
  refine ⟨_, isLoadDistribution_rename R h1, R.forall_voter.2 fun i => ?_⟩
  have := loadOf_rename R A x i
  unfold loadOf at this
  rw [this, R.symm.mul_le]
  exact h2 i

theorem loadWithin_rename_iff (R : Renaming s p p') {A : Finset ℕ} {t : ℚ} :
    LoadWithin p' (R.set A) t ↔ LoadWithin p A (s * t) := by
  constructor
  · intro h
    have := loadWithin_rename R.symm h
    rwa [R.set_symm_set, inv_inv] at this
  · intro h
    have := loadWithin_rename R h
    rwa [inv_mul_cancel_left₀ R.pos.ne'] at this

/-- with a tolerance, only for unchanged weights (`s = 1`) -/
theorem Spec.MinimaxPhragmenOpt.rename (R : Renaming s p p') {ε : ℚ} (hs : s = 1 ∨ ε = 0) {k : ℕ} {A : Finset ℕ}
    (h : MinimaxPhragmenOpt ε p k A) : MinimaxPhragmenOpt ε p' k (R.set A) := by
  obtain ⟨⟨h1, h2⟩, h3⟩ := h
  refine ⟨⟨R.isCommittee.2 h1, ?_⟩, R.forall_set.2 fun B t hB hBt => ?_⟩
  · rw [approvedSet_rename R, R.set_subset, R.set_subset]
    exact h2
  · rw [loadWithin_rename_iff] at hBt ⊢
    have := h3 B _ (R.isCommittee.1 hB) hBt
    rcases hs with rfl | rfl
    · simpa using this
    · simpa using this

theorem supportAtLeast_rename (R : Renaming s p p') {W : Finset ℕ} {t : ℚ} (h : SupportAtLeast p W t) :
    SupportAtLeast p' (R.set W) (s * t) := by
  obtain ⟨f, h1, h2, h3, h4⟩ := h
  refine ⟨fun i c => s * f (R.voter.symm i) (R.cand.symm c), fun i c => mul_nonneg R.pos.le (h1 _ _),
    R.forall_voter.2 fun i => R.forall_cand.2 fun c hne => ?_, R.forall_voter.2 fun i => ?_, R.forall_cand.2 fun c hc => ?_⟩
  · rw [R.approves]
    exact h2 i c fun h0 => hne (by simp [h0])
  · rw [R.sum_set, R.weight, ← Finset.mul_sum, R.mul_le]
    simpa using h3 i
  · rw [R.sum_voters, ← Finset.mul_sum, R.mul_le]
    simpa using h4 c (R.mem_set.1 hc)

theorem supportAtLeast_rename_iff (R : Renaming s p p') {W : Finset ℕ} {t : ℚ} :
    SupportAtLeast p' (R.set W) t ↔ SupportAtLeast p W (s⁻¹ * t) := by
  constructor
  · intro h
    have := supportAtLeast_rename R.symm h
    rwa [R.set_symm_set] at this
  · intro h
    have := supportAtLeast_rename R h
    rwa [mul_inv_cancel_left₀ R.pos.ne'] at this

/-- with a tolerance, only for unchanged weights (`s = 1`) -/
theorem Spec.MaximinWinner.rename (R : Renaming s p p') {ε : ℚ} (hs : s = 1 ∨ ε = 0) {k : ℕ} {A : Finset ℕ}
    (h : MaximinWinner ε p k A) : MaximinWinner ε p' k (R.set A) := by
  refine Spec.RunWinner.rename R (fun _ _ => True) (fun W _ _ c _ hB => ?_) (fun _ _ _ _ _ _ => trivial) trivial h
  obtain ⟨h1, h2, h3⟩ := hB
  refine ⟨(R.lt' c).2 h1, fun e => h2 (R.mem_list.1 e), R.forall_cand.2 fun d hd hdW t ht => ?_⟩
  rw [R.set_toFinset, ← R.set_insert, supportAtLeast_rename_iff] at ht ⊢
  have := h3 d ((R.lt' d).1 hd) (fun e => hdW (R.mem_list.2 e)) _ ht
  rcases hs with rfl | rfl
  · simpa using this
  · simpa using this

theorem voters_length_rename (R : Renaming s p p') : p'.voters.length = p.voters.length := by
  have := Fintype.card_congr R.voter
  simpa using this.symm

theorem loadsWithin_rename (R : Renaming 1 p p') {ε : ℚ} {bounds : List ℚ} {A : Finset ℕ} {v : ℚ}
    (h : LoadsWithin p ε bounds A v) : LoadsWithin p' ε bounds (R.set A) v := by
  obtain ⟨x, h1, σ, h2⟩ := h
  refine ⟨_, isLoadDistribution_rename R h1, ((finCongr (voters_length_rename R)).trans σ).trans R.voter, fun i => ?_⟩
  have := loadOf_rename R A x (σ (finCongr (voters_length_rename R) i))
  rw [inv_one, one_mul] at this
  refine (Eq.trans ?_ this).trans_le (h2 (finCongr (voters_length_rename R) i))
  simp

theorem loadsWithin_rename_iff (R : Renaming 1 p p') {ε : ℚ} {bounds : List ℚ} {A : Finset ℕ} {v : ℚ} :
    LoadsWithin p' ε bounds (R.set A) v ↔ LoadsWithin p ε bounds A v := by
  refine ⟨fun h => ?_, loadsWithin_rename R⟩
  obtain ⟨x, h1, σ, h2⟩ := h
  have h3 := isLoadDistribution_rename R.symm h1
  rw [R.set_symm_set] at h3
  refine ⟨_, h3, ((finCongr (voters_length_rename R).symm).trans σ).trans R.voter.symm, fun i => ?_⟩
  have := loadOf_rename R.symm (R.set A) x (σ (finCongr (voters_length_rename R).symm i))
  rw [R.set_symm_set] at this
  refine (Eq.trans ?_ (this.trans (by rw [inv_inv, one_mul]))).trans_le (h2 (finCongr (voters_length_rename R).symm i))
  rfl

theorem isNextBound_rename (R : Renaming 1 p p') {ε : ℚ} {k : ℕ} {bounds : List ℚ} {v : ℚ} (h : IsNextBound ε p k bounds v) :
    IsNextBound ε p' k bounds v := by
  obtain ⟨⟨B, h1, h2⟩, h3⟩ := h
  refine ⟨⟨R.set B, R.isCommittee.2 h1, loadsWithin_rename R h2⟩, R.forall_set.2 fun B t hB hBt => ?_⟩
  exact h3 B t (R.isCommittee.1 hB) ((loadsWithin_rename_iff R).1 hBt)

theorem levelBounds_rename (R : Renaming 1 p p') {ε δ : ℚ} {k : ℕ} {bounds : List ℚ} (h : LevelBounds ε δ p k bounds) :
    LevelBounds ε δ p' k bounds := by
  induction h with
  | nil => exact .nil
  | level _ h2 h3 ih => exact .level ih (isNextBound_rename R h2) h3

theorem Spec.LevelWinner.rename (R : Renaming 1 p p') {ε δ τ : ℚ} {k : ℕ} {A : Finset ℕ} (h : LevelWinner ε δ τ p k A) :
    LevelWinner ε δ τ p' k (R.set A) := by
  obtain ⟨bounds, v, h1, h2, h3, h4, h5, h6⟩ := h
  refine ⟨bounds, v, levelBounds_rename R h1, isNextBound_rename R h2, ?_, ?_, R.isCommittee.2 h5, loadsWithin_rename R h6⟩
  · rw [voters_length_rename R]; exact h3
  · rw [voters_length_rename R]; exact h4

/-! ## E Pluribus Hugo, Greedy Monroe, Random Serial Dictator -/

theorem sdv_rename (R : Renaming s p p') (S : Finset ℕ) (c : ℕ) : sdv p' (R.set S) (R.cand c) = s * sdv p S c := by
  unfold sdv
  rw [R.backers, R.sum_group, Finset.mul_sum]
  refine Finset.sum_congr rfl fun i _ => ?_
  rw [R.weight, R.appr_voter, R.set_inter, R.card_set, mul_div_assoc]

theorem sdvLow_rename (R : Renaming s p p') (S : Finset ℕ) (c : ℕ) : SdvLow p' (R.set S) (R.cand c) ↔ SdvLow p S c := by
  unfold SdvLow
  have : (R.set S).filter (fun d => sdv p' (R.set S) d < sdv p' (R.set S) (R.cand c))
      = R.set (S.filter (fun d => sdv p S d < sdv p S c)) := by
    ext x
    obtain ⟨d, rfl⟩ := R.cand.surjective x
    rw [R.mem_set, Finset.mem_filter, Finset.mem_filter, R.mem_set, sdv_rename, sdv_rename, R.mul_lt]
  rw [this, R.card_set]

theorem ephElim_rename (R : Renaming s p p') (S : Finset ℕ) (c : ℕ) : EPHElim p' (R.set S) (R.cand c) ↔ EPHElim p S c := by
  unfold EPHElim
  rw [R.mem_set, sdvLow_rename, R.forall_cand]
  simp only [R.mem_set, sdvLow_rename, R.backers, R.wt, R.mul_le]

theorem Spec.EPHWinner.rename (R : Renaming s p p') {k : ℕ} {S A : Finset ℕ} (h : EPHWinner p k S A) :
    EPHWinner p' k (R.set S) (R.set A) := by
  induction h with
  | @stop S E W hE h1 h2 h3 h4 =>
    refine .stop (E := R.set E) (R.forall_cand.2 fun c => ?_) ?_ ?_ (R.set_subset.2 h3) (by rw [R.card_set, h4])
    · rw [R.mem_set, ephElim_rename]; exact hE c
    · rw [R.set_sdiff, R.card_set]; exact h1
    · rw [R.set_sdiff, R.set_subset]; exact h2
  | @next S E W hE h1 _ ih =>
    refine .next (E := R.set E) (R.forall_cand.2 fun c => ?_) ?_ ?_
    · rw [R.mem_set, ephElim_rename]; exact hE c
    · rw [R.set_sdiff, R.card_set]; exact h1
    · rw [R.set_sdiff]; exact ih

theorem firstVoters_rename (R : Renaming s p p') (hR : StrictMono R.voter) (S : Group p) (m : ℕ) :
    firstVoters (S.map R.voter.toEmbedding) m = (firstVoters S m).map R.voter.toEmbedding := by
  unfold firstVoters
  ext x
  obtain ⟨i, rfl⟩ := R.voter.surjective x
  have : (S.map R.voter.toEmbedding).filter (fun j => j < R.voter i) = (S.filter (fun j => j < i)).map R.voter.toEmbedding := by
    ext y
    obtain ⟨j, rfl⟩ := R.voter.surjective y
    simp [hR.lt_iff_lt]
  rw [Finset.mem_filter, this, Finset.card_map]
  simp

theorem unassigned_rename (R : Renaming s p p') (Ds : List (Group p)) :
    unassigned p' (Ds.map (Finset.map R.voter.toEmbedding)) = (unassigned p Ds).map R.voter.toEmbedding := by
  unfold unassigned
  ext x
  obtain ⟨i, rfl⟩ := R.voter.surjective x
  simp

theorem greedyMonroe_rename (R : Renaming s p p') (hR : StrictMono R.voter) {k : ℕ} {A : Finset ℕ}
    (h : RunWinner (GMBest p) (gmUpd p k) [] k A) : RunWinner (GMBest p') (gmUpd p' k) [] k (R.set A) := by
  refine Spec.RunWinner.rename R (fun Ds Ds' => Ds' = Ds.map (Finset.map R.voter.toEmbedding)) ?_ ?_ rfl h
  · rintro W Ds _ c rfl ⟨h1, h2, h3⟩
    refine ⟨(R.lt' c).2 h1, fun e => h2 (R.mem_list.1 e), R.forall_cand.2 fun d hd hdW => ?_⟩
    rw [unassigned_rename, R.backers, R.backers, ← Finset.map_inter, ← Finset.map_inter, Finset.card_map, Finset.card_map]
    exact h3 d ((R.lt' d).1 hd) fun e => hdW (R.mem_list.2 e)
  · rintro W Ds _ c rfl -
    unfold gmUpd
    have hd : districtSize p'.voters.length k (W.map R.cand).length = districtSize p.voters.length k W.length := by
      rw [voters_length_rename R, List.length_map]
    rw [unassigned_rename, R.backers, ← Finset.map_inter, firstVoters_rename R hR, hd]
    simp

theorem approvals_perm (R : Renaming s p p') (hR : R.cand = Equiv.refl ℕ) : (p'.voters.map Voter.A).Perm (p.voters.map Voter.A) := by
  have h1 : ∀ q : Profile, q.voters.map Voter.A = (List.finRange q.voters.length).map (appr q) := by
    intro q
    refine List.ext_getElem (by simp) fun n h1 h2 => ?_
    simp [appr]
  rw [h1, h1]
  have h2 : (List.finRange p'.voters.length).Perm ((List.finRange p.voters.length).map R.voter) := by
    rw [List.perm_ext_iff_of_nodup (List.nodup_finRange _) ((List.nodup_finRange _).map R.voter.injective)]
    intro a
    obtain ⟨i, rfl⟩ := R.voter.surjective a
    simp
  refine (h2.map _).trans (List.Perm.of_eq ?_)
  rw [List.map_map]
  refine List.map_congr_left fun i _ => ?_
  rw [Function.comp_apply, R.appr_voter, cand_one hR]

theorem Spec.RsdOutcome.rename (R : Renaming s p p') (hR : R.cand = Equiv.refl ℕ) {k : ℕ} {A : Finset ℕ} (h : RsdOutcome p k A) :
    RsdOutcome p' k (R.set A) := by
  obtain ⟨h1, As, h2, h3⟩ := h
  refine ⟨R.isCommittee.2 h1, As, h2.trans (approvals_perm R hR).symm, ?_⟩
  rw [cand_one hR]
  exact h3

end Abc
