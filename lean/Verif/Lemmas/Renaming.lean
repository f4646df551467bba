import Verif.Spec.Renaming
import Verif.Spec.Dispatch
import Verif.Lemmas.VoterMaps
import Verif.Lemmas.Lex

/-!
# All rules commute with renaming candidates and reordering voters
-/

namespace Abc
open Spec

variable {s : ℚ} {p p' : Profile}

namespace Spec.Renaming

/-- The inverse renaming. -/
def symm (R : Renaming s p p') : Renaming s⁻¹ p' p where
  voter := R.voter.symm
  cand := R.cand.symm
  pos := inv_pos.2 R.pos
  numCand := R.numCand.symm
  lt c := by
    rw [R.numCand]
    have := R.lt (R.cand.symm c)
    rw [Equiv.apply_symm_apply] at this
    exact this.symm
  approves i c := by
    have := R.approves (R.voter.symm i) (R.cand.symm c)
    rw [Equiv.apply_symm_apply, Equiv.apply_symm_apply] at this
    exact this.symm
  weight i := by
    have := R.weight (R.voter.symm i)
    rw [Equiv.apply_symm_apply] at this
    rw [this, inv_mul_cancel_left₀ R.pos.ne']

variable (R : Renaming s p p')

theorem mem_set {A : Finset ℕ} {c : ℕ} : R.cand c ∈ R.set A ↔ c ∈ A := by
  unfold set
  simp

theorem set_symm_set (A : Finset ℕ) : R.symm.set (R.set A) = A := by
  ext c
  have h1 := R.symm.mem_set (A := R.set A) (c := R.cand c)
  have h2 : R.symm.cand (R.cand c) = c := R.cand.symm_apply_apply c
  rw [h2, R.mem_set] at h1
  exact h1

theorem set_surj (B : Finset ℕ) : ∃ A, B = R.set A := by
  refine ⟨R.symm.set B, ?_⟩
  ext c
  obtain ⟨d, rfl⟩ := R.cand.surjective c
  rw [R.mem_set]
  have h1 := R.symm.mem_set (A := B) (c := R.cand d)
  have h2 : R.symm.cand (R.cand d) = d := R.cand.symm_apply_apply d
  rw [h2] at h1
  exact h1.symm

theorem card_set (A : Finset ℕ) : (R.set A).card = A.card := Finset.card_map _

theorem set_inter (A B : Finset ℕ) : R.set A ∩ R.set B = R.set (A ∩ B) := by
  unfold set
  rw [Finset.map_inter]

theorem set_union (A B : Finset ℕ) : R.set A ∪ R.set B = R.set (A ∪ B) := by
  unfold set
  rw [Finset.map_union]

theorem set_sdiff (A B : Finset ℕ) : R.set A \ R.set B = R.set (A \ B) := by
  ext c
  obtain ⟨d, rfl⟩ := R.cand.surjective c
  simp [mem_set]

theorem set_symmDiff (A B : Finset ℕ) : symmDiff (R.set A) (R.set B) = R.set (symmDiff A B) := by
  ext c
  obtain ⟨d, rfl⟩ := R.cand.surjective c
  simp [mem_set, Finset.mem_symmDiff]

theorem set_subset {A B : Finset ℕ} : R.set A ⊆ R.set B ↔ A ⊆ B := Finset.map_subset_map

theorem set_insert (c : ℕ) (A : Finset ℕ) : R.set (insert c A) = insert (R.cand c) (R.set A) := by
  unfold set
  rw [Finset.map_insert]
  rfl

theorem set_erase (c : ℕ) (A : Finset ℕ) : R.set (A.erase c) = (R.set A).erase (R.cand c) := by
  ext x
  obtain ⟨d, rfl⟩ := R.cand.surjective x
  simp [mem_set]

theorem set_range : R.set (Finset.range p.numCand) = Finset.range p'.numCand := by
  ext x
  obtain ⟨d, rfl⟩ := R.cand.surjective x
  rw [R.mem_set, Finset.mem_range, Finset.mem_range, R.numCand, R.lt]

theorem lt' (c : ℕ) : R.cand c < p'.numCand ↔ c < p.numCand := by rw [R.numCand, R.lt]

theorem set_toFinset (W : List ℕ) : (W.map R.cand).toFinset = R.set W.toFinset := by
  ext x
  obtain ⟨d, rfl⟩ := R.cand.surjective x
  simp [mem_set]

theorem mem_list {W : List ℕ} {c : ℕ} : R.cand c ∈ W.map R.cand ↔ c ∈ W := by simp

theorem sum_set (A : Finset ℕ) (f : ℕ → ℚ) : ∑ c ∈ R.set A, f c = ∑ c ∈ A, f (R.cand c) := by
  unfold set
  rw [Finset.sum_map]
  rfl

theorem appr_voter (i : Fin p.voters.length) : appr p' (R.voter i) = R.set (appr p i) := by
  ext x
  obtain ⟨d, rfl⟩ := R.cand.surjective x
  rw [R.mem_set, R.approves]

theorem forall_set {P : Finset ℕ → Prop} : (∀ B, P B) ↔ ∀ B, P (R.set B) :=
  ⟨fun h B => h _, fun h B => by obtain ⟨A, rfl⟩ := R.set_surj B; exact h A⟩

theorem forall_cand {P : ℕ → Prop} : (∀ c, P c) ↔ ∀ c, P (R.cand c) := R.cand.surjective.forall

theorem forall_voter {P : Fin p'.voters.length → Prop} : (∀ c, P c) ↔ ∀ c, P (R.voter c) := R.voter.surjective.forall

theorem isCommittee {k : ℕ} {A : Finset ℕ} : IsCommittee p' k (R.set A) ↔ IsCommittee p k A := by
  unfold IsCommittee
  rw [R.card_set, ← R.set_range, R.set_subset]

theorem sum_voters (f : Fin p'.voters.length → ℚ) : ∑ i, f i = ∑ i, f (R.voter i) := (R.voter.sum_comp f).symm

include R in
theorem total : total p' = s * total p := by
  unfold Spec.total
  rw [R.sum_voters, Finset.mul_sum]
  exact Finset.sum_congr rfl fun i _ => R.weight i

theorem backers (c : ℕ) : backers p' (R.cand c) = (backers p c).map R.voter.toEmbedding := by
  ext x
  obtain ⟨i, rfl⟩ := R.voter.surjective x
  unfold Spec.backers
  simp [R.approves]

theorem sum_group (G : Group p) (f : Fin p'.voters.length → ℚ) :
    ∑ i ∈ G.map R.voter.toEmbedding, f i = ∑ i ∈ G, f (R.voter i) := by
  rw [Finset.sum_map]
  rfl

theorem wt (G : Group p) : wt p' (G.map R.voter.toEmbedding) = s * wt p G := by
  unfold Spec.wt
  rw [R.sum_group, Finset.mul_sum]
  exact Finset.sum_congr rfl fun i _ => R.weight i

theorem group_surj (G : Group p') : ∃ H : Group p, G = H.map R.voter.toEmbedding := by
  refine ⟨G.map R.voter.symm.toEmbedding, ?_⟩
  ext x
  simp

theorem util (i : Fin p.voters.length) (A : Finset ℕ) :
    Spec.util (p'.voters.get (R.voter i)) (R.set A) = Spec.util (p.voters.get i) A := by
  have h := R.appr_voter i
  unfold appr at h
  unfold Spec.util
  rw [h, R.set_inter, R.card_set]

theorem dist (i : Fin p.voters.length) (A : Finset ℕ) :
    Spec.dist (p'.voters.get (R.voter i)) (R.set A) = Spec.dist (p.voters.get i) A := by
  have h := R.appr_voter i
  unfold appr at h
  unfold Spec.dist
  rw [h, R.set_symmDiff, R.card_set]

theorem sum_list (g : Voter → ℚ) : (p'.voters.map g).sum = ∑ i, g (p'.voters.get (R.voter i)) := by
  rw [voters_map_sum, R.sum_voters]

theorem score (f : ℕ → ℚ) (A : Finset ℕ) : score f p' (R.set A) = s * score f p A := by
  unfold Spec.score
  rw [R.sum_list, voters_map_sum, Finset.mul_sum]
  refine Finset.sum_congr rfl fun i _ => ?_
  rw [R.util, R.weight, mul_assoc]

theorem coverage (l : ℕ) (A : Finset ℕ) : coverage p' l (R.set A) = s * coverage p l A := by
  unfold Spec.coverage
  rw [R.sum_list, voters_map_sum, Finset.mul_sum]
  refine Finset.sum_congr rfl fun i _ => ?_
  rw [R.util, R.weight, mul_ite, mul_zero]

theorem candScore (r : SepRule) (c : ℕ) : candScore r p' (R.cand c) = s * candScore r p c := by
  unfold Spec.candScore
  rw [R.sum_list, voters_map_sum, Finset.mul_sum]
  refine Finset.sum_congr rfl fun i _ => ?_
  have h := R.appr_voter i
  unfold appr at h
  have hm : R.cand c ∈ (p'.voters.get (R.voter i)).A ↔ c ∈ (p.voters.get i).A := by rw [h, R.mem_set]
  rw [R.weight]
  by_cases hc : c ∈ (p.voters.get i).A
  · rw [if_pos (hm.2 hc), if_pos hc, h, R.card_set]
    cases r
    · rfl
    · exact mul_div_assoc _ _ _
  · rw [if_neg (fun e => hc (hm.1 e)), if_neg hc, mul_zero]

include R in
theorem mul_le {x y : ℚ} : s * x ≤ s * y ↔ x ≤ y := mul_le_mul_iff_right₀ R.pos

include R in
theorem mul_lt {x y : ℚ} : s * x < s * y ↔ x < y := mul_lt_mul_iff_right₀ R.pos

theorem forall_mem_voters {P : Voter → Prop} : (∀ v ∈ p'.voters, P v) ↔ ∀ i, P (p'.voters.get (R.voter i)) := by
  rw [List.forall_mem_iff_get]
  exact R.voter.surjective.forall

end Spec.Renaming

/-! ## Rules without a state -/

theorem Spec.ThieleOpt.rename (R : Renaming s p p') {f : ℕ → ℚ} {k : ℕ} {A : Finset ℕ} (h : ThieleOpt f p k A) :
    ThieleOpt f p' k (R.set A) := by
  refine ⟨R.isCommittee.2 h.1, R.forall_set.2 fun B hB => ?_⟩
  rw [R.score, R.score, R.mul_le]
  exact h.2 B (R.isCommittee.1 hB)

theorem Spec.SepOpt.rename (R : Renaming s p p') {r : SepRule} {k : ℕ} {A : Finset ℕ} (h : SepOpt r p k A) :
    SepOpt r p' k (R.set A) := by
  refine ⟨R.isCommittee.2 h.1, R.forall_set.2 fun B hB => ?_⟩
  rw [R.sum_set, R.sum_set, Finset.sum_congr rfl fun c _ => R.candScore r c, Finset.sum_congr rfl fun c _ => R.candScore r c,
    ← Finset.mul_sum, ← Finset.mul_sum, R.mul_le]
  exact h.2 B (R.isCommittee.1 hB)

theorem Spec.LexccOpt.rename (R : Renaming s p p') {k : ℕ} {A : Finset ℕ} (h : LexccOpt p k A) : LexccOpt p' k (R.set A) := by
  refine ⟨R.isCommittee.2 h.1, R.forall_set.2 fun B hB => ?_⟩
  have h2 := h.2 B (R.isCommittee.1 hB)
  unfold coverageVector at h2 ⊢
  rw [map_range_lt_iff] at h2 ⊢
  rintro ⟨i, hi, he, hlt⟩
  refine h2 ⟨i, hi, fun j hj => ?_, ?_⟩
  · have : coverage p' (j + 1) (R.set A) = coverage p' (j + 1) (R.set B) := he j hj
    rw [R.coverage, R.coverage] at this
    exact mul_left_cancel₀ R.pos.ne' this
  · replace hlt : coverage p' (i + 1) (R.set A) < coverage p' (i + 1) (R.set B) := hlt
    rw [R.coverage, R.coverage] at hlt
    exact R.mul_lt.1 hlt

theorem Spec.MinimaxavOpt.rename (R : Renaming s p p') {k : ℕ} {A : Finset ℕ} (h : MinimaxavOpt p k A) :
    MinimaxavOpt p' k (R.set A) := by
  refine ⟨R.isCommittee.2 h.1, R.forall_set.2 fun B hB d hd => ?_⟩
  rw [R.forall_mem_voters] at hd ⊢
  have h2 := h.2 B (R.isCommittee.1 hB) d (by
    rw [List.forall_mem_iff_get]
    exact fun i => by rw [← R.dist]; exact hd i)
  rw [List.forall_mem_iff_get] at h2
  exact fun i => by rw [R.dist]; exact h2 i

theorem distVector_rename (R : Renaming s p p') (A : Finset ℕ) : distVector p' (R.set A) = distVector p A := by
  unfold distVector
  congr 1
  have h1 : ∀ (q : Profile) (B : Finset ℕ), ((q.voters.map (fun v => dist v B) : List ℕ) : Multiset ℕ)
      = Finset.univ.val.map (fun i : Fin q.voters.length => dist (q.voters.get i) B) := by
    intro q B
    rw [Fin.univ_def]
    rw [Multiset.map_coe]
    congr 1
    refine List.ext_getElem (by simp) fun n h1 h2 => ?_
    simp
  rw [h1, h1]
  have h2 : (Finset.univ : Finset (Fin p'.voters.length)) = Finset.univ.map R.voter.toEmbedding := by simp
  rw [h2, Finset.map_val, Multiset.map_map]
  exact Multiset.map_congr rfl fun i _ => R.dist i A

theorem Spec.LexminimaxavOpt.rename (R : Renaming s p p') {k : ℕ} {A : Finset ℕ} (h : LexminimaxavOpt p k A) :
    LexminimaxavOpt p' k (R.set A) := by
  refine ⟨R.isCommittee.2 h.1, R.forall_set.2 fun B hB => ?_⟩
  rw [distVector_rename, distVector_rename]
  exact h.2 B (R.isCommittee.1 hB)

theorem Spec.MonroeOpt.rename (R : Renaming s p p') {k : ℕ} {A : Finset ℕ} (h : MonroeOpt p k A) : MonroeOpt p' k (R.set A) := by
  have hn : p'.voters.length = p.voters.length := by
    have := Fintype.card_congr R.voter
    simpa using this.symm
  have hcard : ∀ (φ : Fin p.voters.length → ℕ) (ψ : Fin p'.voters.length → ℕ) (_ : ∀ i, ψ (R.voter i) = R.cand (φ i)) (c : ℕ),
      (Finset.univ.filter (fun i => ψ i = R.cand c)).card = (Finset.univ.filter (fun i => φ i = c)).card := by
    intro φ ψ h c
    rw [← Finset.card_map R.voter.toEmbedding]
    congr 1
    ext x
    obtain ⟨i, rfl⟩ := R.voter.surjective x
    simp [h]
  have hrep : ∀ (φ : Fin p.voters.length → ℕ) (ψ : Fin p'.voters.length → ℕ) (_ : ∀ i, ψ (R.voter i) = R.cand (φ i)),
      represented p' ψ = represented p φ := by
    intro φ ψ h
    unfold represented
    rw [← Finset.card_map R.voter.toEmbedding]
    congr 1
    ext x
    obtain ⟨i, rfl⟩ := R.voter.surjective x
    simp [h, R.approves]
  have hbal : ∀ (φ : Fin p.voters.length → ℕ) (ψ : Fin p'.voters.length → ℕ) (_ : ∀ i, ψ (R.voter i) = R.cand (φ i))
      (B : Finset ℕ), Balanced p' (R.set B) ψ ↔ Balanced p B φ := by
    intro φ ψ h B
    unfold Balanced
    rw [R.forall_voter, R.forall_cand]
    simp only [h, R.mem_set, hcard φ ψ h, R.card_set, hn]
  obtain ⟨h1, φ, h2, h3⟩ := h
  refine ⟨R.isCommittee.2 h1, fun i => R.cand (φ (R.voter.symm i)), (hbal φ _ (by simp) A).2 h2, ?_⟩
  refine R.forall_set.2 fun B ψ hB hψ => ?_
  rw [hrep (fun i => R.cand.symm (ψ (R.voter i))) ψ (by simp), hrep φ _ (by simp)]
  exact h3 B _ (R.isCommittee.1 hB) ((hbal _ ψ (by simp) B).1 hψ)

/-! ## Sequential rules -/

theorem gain_rename (R : Renaming s p p') (f : ℕ → ℚ) (W : Finset ℕ) (c : ℕ) :
    gain f p' (R.set W) (R.cand c) = s * gain f p W c := by
  unfold gain
  rw [← R.set_insert, R.score, R.score, mul_sub]

theorem loss_rename (R : Renaming s p p') (f : ℕ → ℚ) (W : Finset ℕ) (c : ℕ) :
    loss f p' (R.set W) (R.cand c) = s * loss f p W c := by
  unfold loss
  rw [← R.set_erase, R.score, R.score, mul_sub]

theorem Spec.SeqRun.rename (R : Renaming s p p') {f : ℕ → ℚ} {W : List ℕ} (h : SeqRun f p W) : SeqRun f p' (W.map R.cand) := by
  induction h with
  | nil => exact .nil
  | @snoc W c _ hc hW hmax ih =>
    rw [List.map_append]
    refine .snoc ih ((R.lt' c).2 hc) (fun h => hW (R.mem_list.1 h)) (R.forall_cand.2 fun d hd hdW => ?_)
    rw [R.set_toFinset, gain_rename, gain_rename, R.mul_le]
    exact hmax d ((R.lt' d).1 hd) fun h => hdW (R.mem_list.2 h)

theorem Spec.SeqThieleWinner.rename (R : Renaming s p p') {f : ℕ → ℚ} {k : ℕ} {A : Finset ℕ} (h : SeqThieleWinner f p k A) :
    SeqThieleWinner f p' k (R.set A) := by
  obtain ⟨W, h1, h2, rfl⟩ := h
  exact ⟨_, h1.rename R, by rw [List.length_map, h2], R.set_toFinset W⟩

theorem Spec.RevRun.rename (R : Renaming s p p') {f : ℕ → ℚ} {A : Finset ℕ} (h : RevRun f p A) : RevRun f p' (R.set A) := by
  induction h with
  | all => rw [R.set_range]; exact .all
  | @remove W c _ hc hmin ih =>
    rw [R.set_erase]
    refine .remove ih (R.mem_set.2 hc) (R.forall_cand.2 fun d hd => ?_)
    rw [loss_rename, loss_rename, R.mul_le]
    exact hmin d (R.mem_set.1 hd)

theorem Spec.Run.rename {σ σ' : Type} {Best : List ℕ → σ → ℕ → Prop} {Best' : List ℕ → σ' → ℕ → Prop}
    {upd : List ℕ → σ → ℕ → σ} {upd' : List ℕ → σ' → ℕ → σ'} (φ : ℕ → ℕ) (Rel : σ → σ' → Prop)
    (hb : ∀ W s s' c, Rel s s' → Best W s c → Best' (W.map φ) s' (φ c))
    (hu : ∀ W s s' c, Rel s s' → Best W s c → Rel (upd W s c) (upd' (W.map φ) s' (φ c)))
    {W₀ : List ℕ} {s₀ : σ} {s₀' : σ'} (h0 : Rel s₀ s₀') {W : List ℕ} {s : σ} (h : Run Best upd W₀ s₀ W s) :
    ∃ s', Run Best' upd' (W₀.map φ) s₀' (W.map φ) s' ∧ Rel s s' := by
  induction h with
  | start => exact ⟨_, .start, h0⟩
  | step _ hB ih =>
    obtain ⟨s', h1, h2⟩ := ih
    refine ⟨_, ?_, hu _ _ _ _ h2 hB⟩
    rw [List.map_append]
    exact .step h1 (hb _ _ _ _ h2 hB)

theorem Spec.RunWinner.rename (R : Renaming s p p') {σ σ' : Type} {Best : List ℕ → σ → ℕ → Prop} {Best' : List ℕ → σ' → ℕ → Prop}
    {upd : List ℕ → σ → ℕ → σ} {upd' : List ℕ → σ' → ℕ → σ'} (Rel : σ → σ' → Prop)
    (hb : ∀ W s s' c, Rel s s' → Best W s c → Best' (W.map R.cand) s' (R.cand c))
    (hu : ∀ W s s' c, Rel s s' → Best W s c → Rel (upd W s c) (upd' (W.map R.cand) s' (R.cand c)))
    {s₀ : σ} {s₀' : σ'} (h0 : Rel s₀ s₀') {k : ℕ} {A : Finset ℕ} (h : RunWinner Best upd s₀ k A) :
    RunWinner Best' upd' s₀' k (R.set A) := by
  obtain ⟨W, x, h1, h2, rfl⟩ := h
  obtain ⟨x', h3, -⟩ := Run.rename R.cand Rel hb hu h0 h1
  exact ⟨_, x', h3, by rw [List.length_map, h2], R.set_toFinset W⟩

/-- The number that belongs to every voter is multiplied by `a`. -/
def Scaled (R : Renaming s p p') (a : ℚ) (x : VoterMap p) (x' : VoterMap p') : Prop := ∀ i, x' (R.voter i) = a * x i

theorem backers_nonempty (R : Renaming s p p') (c : ℕ) : (backers p' (R.cand c)).Nonempty ↔ (backers p c).Nonempty := by
  rw [R.backers, Finset.map_nonempty]

theorem backers_empty (R : Renaming s p p') (c : ℕ) : backers p' (R.cand c) = ∅ ↔ backers p c = ∅ := by
  rw [R.backers, Finset.map_eq_empty]

theorem mem_backers_rename (R : Renaming s p p') (c : ℕ) (i : Fin p.voters.length) :
    R.voter i ∈ backers p' (R.cand c) ↔ i ∈ backers p c := by
  rw [R.backers]
  simp

theorem newLoad_rename (R : Renaming s p p') {x : VoterMap p} {x' : VoterMap p'} (h : Scaled R s⁻¹ x x') (c : ℕ) :
    newLoad p' x' (R.cand c) = s⁻¹ * newLoad p x c := by
  unfold newLoad
  rw [R.backers, R.wt, R.sum_group]
  have : ∑ i ∈ backers p c, (p'.voters.get (R.voter i)).weight * x' (R.voter i)
      = ∑ i ∈ backers p c, (p.voters.get i).weight * x i := by
    refine Finset.sum_congr rfl fun i _ => ?_
    rw [R.weight, h i]
    have := R.pos.ne'
    field_simp
  rw [this, inv_mul_eq_div, div_div, mul_comm s]

theorem phragBest_rename (R : Renaming s p p') (W : List ℕ) (x : VoterMap p) (x' : VoterMap p') (c : ℕ) (h : Scaled R s⁻¹ x x')
    (hB : PhragBest p W x c) : PhragBest p' (W.map R.cand) x' (R.cand c) := by
  obtain ⟨h1, h2, h3⟩ := hB
  refine ⟨(R.lt' c).2 h1, fun e => h2 (R.mem_list.1 e), ?_⟩
  rcases h3 with ⟨h3, h4⟩ | h3
  · refine .inl ⟨(backers_nonempty R c).2 h3, R.forall_cand.2 fun d hd hdW hdb => ?_⟩
    rw [newLoad_rename R h, newLoad_rename R h, R.symm.mul_le]
    exact h4 d ((R.lt' d).1 hd) (fun e => hdW (R.mem_list.2 e)) ((backers_nonempty R d).1 hdb)
  · refine .inr (R.forall_cand.2 fun d hd hdW => ?_)
    exact (backers_empty R d).2 (h3 d ((R.lt' d).1 hd) fun e => hdW (R.mem_list.2 e))

theorem phragUpd_rename (R : Renaming s p p') (W : List ℕ) (x : VoterMap p) (x' : VoterMap p') (c : ℕ) (h : Scaled R s⁻¹ x x') :
    Scaled R s⁻¹ (phragUpd p W x c) (phragUpd p' (W.map R.cand) x' (R.cand c)) := by
  intro i
  unfold phragUpd
  by_cases hi : i ∈ backers p c
  · rw [if_pos ((mem_backers_rename R c i).2 hi), if_pos hi, newLoad_rename R h]
  · rw [if_neg (fun e => hi ((mem_backers_rename R c i).1 e)), if_neg hi, h i]

theorem seqphragmen_rename (R : Renaming s p p') {k : ℕ} {A : Finset ℕ}
    (h : RunWinner (PhragBest p) (phragUpd p) (fun _ => 0) k A) :
    RunWinner (PhragBest p') (phragUpd p') (fun _ => 0) k (R.set A) :=
  RunWinner.rename R (Scaled R s⁻¹) (phragBest_rename R) (fun W x x' c h _ => phragUpd_rename R W x x' c h)
    (fun _ => (mul_zero _).symm) h

theorem sum_backers_with (R : Renaming s p p') (c : ℕ) (P : Fin p'.voters.length → Prop) [DecidablePred P]
    (Q : Fin p.voters.length → Prop) [DecidablePred Q] (hPQ : ∀ i, P (R.voter i) ↔ Q i) (f : Fin p'.voters.length → ℚ) :
    ∑ i ∈ backers p' (R.cand c) with P i, f i = ∑ i ∈ backers p c with Q i, f (R.voter i) := by
  rw [← R.sum_group]
  congr 1
  ext x
  obtain ⟨i, rfl⟩ := R.voter.surjective x
  rw [Finset.mem_filter, mem_backers_rename, hPQ]
  simp

theorem Scaled.pos_iff {R : Renaming s p p'} {b : VoterMap p} {b' : VoterMap p'} (h : Scaled R s b b') (i : Fin p.voters.length) :
    0 < b' (R.voter i) ↔ 0 < b i := by
  rw [h i]
  exact mul_pos_iff_of_pos_left R.pos

theorem support_rename (R : Renaming s p p') {b : VoterMap p} {b' : VoterMap p'} (h : Scaled R s b b') (c : ℕ) :
    support p' b' (R.cand c) = s * support p b c := by
  unfold support
  rw [sum_backers_with R c _ (fun i => 0 < b i) h.pos_iff, Finset.mul_sum]
  exact Finset.sum_congr rfl fun i _ => h i

theorem supportBest_rename (R : Renaming s p p') (W : List ℕ) (b : VoterMap p) (b' : VoterMap p') (c : ℕ) (h : Scaled R s b b')
    (hB : SupportBest p W b c) : SupportBest p' (W.map R.cand) b' (R.cand c) := by
  refine ⟨(R.lt' c).2 hB.1, fun e => hB.2.1 (R.mem_list.1 e), R.forall_cand.2 fun d hd hdW => ?_⟩
  rw [support_rename R h, support_rename R h, R.mul_le]
  exact hB.2.2 d ((R.lt' d).1 hd) fun e => hdW (R.mem_list.2 e)

theorem Spec.EnestroemWinner.rename (R : Renaming s p p') {k : ℕ} {A : Finset ℕ} (h : EnestroemWinner p k A) :
    EnestroemWinner p' k (R.set A) := by
  refine RunWinner.rename R (Scaled R s) (supportBest_rename R) (fun W b b' c hb _ i => ?_) (fun i => R.weight i) h
  have hq : total p' / k = s * (total p / k) := by rw [R.total, mul_div_assoc]
  unfold enestroemUpd
  rw [support_rename R hb, hq, hb i]
  by_cases hi : i ∈ backers p c
  · rw [if_pos ((mem_backers_rename R c i).2 hi), if_pos hi]
    by_cases hlt : total p / k < support p b c
    · rw [if_pos (R.mul_lt.2 hlt), if_pos hlt, mul_div_mul_left _ _ R.pos.ne']
      ring
    · rw [if_neg (fun e => hlt (R.mul_lt.1 e)), if_neg hlt, mul_zero]
  · rw [if_neg (fun e => hi ((mem_backers_rename R c i).1 e)), if_neg hi]

theorem Spec.ConsensusWinner.rename (R : Renaming s p p') {k : ℕ} {A : Finset ℕ} (h : ConsensusWinner p k A) :
    ConsensusWinner p' k (R.set A) := by
  have hinc : ∀ {b : VoterMap p} {b' : VoterMap p'}, Scaled R s b b' → Scaled R s (income p b) (income p' b') := by
    intro b b' hb i
    unfold income
    rw [hb i, R.weight, mul_add]
  refine RunWinner.rename (Best' := ConsensusBest p') R (Scaled R s)
    (fun W b b' c hb hB => supportBest_rename R W _ _ c (hinc hb) hB)
    (fun W b b' c hb _ i => ?_) (s₀' := fun _ => 0) (fun i => (mul_zero s).symm) h
  unfold consensusUpd
  rw [sum_backers_with R c _ (fun i => 0 < income p b i) (hinc hb).pos_iff, R.total, hinc hb i, R.weight,
    Finset.sum_congr rfl fun i _ => R.weight i, ← Finset.mul_sum, mul_div_mul_left _ _ R.pos.ne']
  have hiff : (R.voter i ∈ backers p' (R.cand c) ∧ 0 < s * income p b i) ↔ (i ∈ backers p c ∧ 0 < income p b i) := by
    rw [mem_backers_rename, mul_pos_iff_of_pos_left R.pos]
  by_cases h : i ∈ backers p c ∧ 0 < income p b i
  · rw [if_pos (hiff.2 h), if_pos h]
    ring
  · rw [if_neg (fun e => h (hiff.1 e)), if_neg h]

end Abc
