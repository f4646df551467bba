import Verif.Spec.Dominance
import Verif.Props.ComputeCheck
import Verif.Props.MaximinPriceable
import Verif.Props.CandidateMonotonicity

/-!
# C101, C102, C103: candidates with more supporters come first
-/

namespace Abc
open Spec

section
variable {p : Profile} {c d : ℕ} {A : Finset ℕ}

/-- `A` with `d` replaced by `c`. -/
def replaced (A : Finset ℕ) (c d : ℕ) : Finset ℕ := insert c (A.erase d)

theorem mem_replaced {x : ℕ} : x ∈ replaced A c d ↔ x = c ∨ x ∈ A ∧ x ≠ d := by
  unfold replaced
  rw [Finset.mem_insert, Finset.mem_erase, and_comm]

theorem replaced_committee {k : ℕ} (h : IsCommittee p k A) (hd : d ∈ A) (hc : c ∉ A) (hlt : c < p.numCand) :
    IsCommittee p k (replaced A c d) := by
  refine ⟨fun x hx => ?_, ?_⟩
  · rcases mem_replaced.1 hx with rfl | ⟨h1, -⟩
    · exact Finset.mem_range.2 hlt
    · exact h.1 h1
  · unfold replaced
    rw [Finset.card_insert_of_notMem (fun h => hc (Finset.mem_of_mem_erase h)), Finset.card_erase_of_mem hd, h.2]
    have : 0 < A.card := Finset.card_pos.2 ⟨d, hd⟩
    have := h.2
    omega

theorem util_replaced (v : Voter) (hd : d ∈ A) (hc : c ∉ A) :
    util v (replaced A c d) + (if d ∈ v.A then 1 else 0) = util v A + if c ∈ v.A then 1 else 0 := by
  have h1 : c ∉ A.erase d := fun h => hc (Finset.mem_of_mem_erase h)
  unfold replaced
  rw [util_insert v h1, util_erase v hd]
  omega

theorem sum_replaced (F : ℕ → ℚ) (hd : d ∈ A) (hc : c ∉ A) : ∑ x ∈ replaced A c d, F x = ∑ x ∈ A, F x - F d + F c := by
  have h1 : c ∉ A.erase d := fun h => hc (Finset.mem_of_mem_erase h)
  unfold replaced
  rw [Finset.sum_insert h1, ← Finset.add_sum_erase A F hd]
  ring

theorem Spec.MoreApproved.lt (hp : p.WF) (h : MoreApproved p c d) : c < p.numCand := by
  obtain ⟨-, v, hv, h1, -⟩ := h
  exact hp.lt v hv c (by simpa [Voter.A] using h1)

theorem Spec.MoreApproved.dominates (h : MoreApproved p c d) (hd : d ∈ A) (hc : c ∉ A) : Dominates p (replaced A c d) A := by
  refine ⟨fun v hv => ?_, ?_⟩
  · have h1 := util_replaced v hd hc
    have h2 := h.1 v hv
    split_ifs at h1 <;> first | omega | exact absurd (h2 ‹_›) ‹_›
  · obtain ⟨-, v, hv, h1, h2⟩ := h
    refine ⟨v, hv, ?_⟩
    have := util_replaced v hd hc
    rw [if_pos h1, if_neg h2] at this
    omega

/-- Pareto optimal committees respect dominance. -/
theorem dominance_of_pareto (hp : p.WF) (hA : A ⊆ Finset.range p.numCand) (hpar : ParetoOptimal p A) (h : MoreApproved p c d) (hd : d ∈ A) :
    c ∈ A := by
  by_contra hc
  exact hpar _ (replaced_committee ⟨hA, rfl⟩ hd hc (h.lt hp)) (h.dominates hd hc)

/-! ### Sequential rules -/

theorem sum_more {F : Voter → ℚ} (hF : ∀ v ∈ p.voters, 0 ≤ F v) (hpos : ∀ v ∈ p.voters, c ∈ v.A → 0 < F v) (h : MoreApproved p c d) :
    (p.voters.map (fun v => if d ∈ v.A then F v else 0)).sum < (p.voters.map (fun v => if c ∈ v.A then F v else 0)).sum := by
  obtain ⟨h1, u, hu, h2, h3⟩ := h
  refine List.sum_lt_sum _ _ (fun v hv => ?_) ⟨u, hu, ?_⟩
  · have := h1 v hv
    have := hF v hv
    split_ifs <;> first | exact le_rfl | assumption | exact absurd (h1 v hv ‹_›) ‹_›
  · rw [if_neg h3, if_pos h2]
    exact hpos u hu h2

theorem gain_more (hp : p.WF) {f : ℕ → ℚ} (hf : ∀ i, 0 < f (i + 1)) (h : MoreApproved p c d) {W : Finset ℕ} (hc : c ∉ W) (hd : d ∉ W) :
    gain f p W d < gain f p W c := by
  unfold gain
  rw [score_insert f p W d hd, score_insert f p W c hc]
  exact sum_more (F := fun v => v.weight * f (util v W + 1)) (fun v hv => (mul_pos (hp.weight v hv) (hf _)).le)
    (fun v hv _ => mul_pos (hp.weight v hv) (hf _)) h

theorem loss_more (hp : p.WF) {f : ℕ → ℚ} (hf : ∀ i, 0 < f (i + 1)) (h : MoreApproved p c d) {W : Finset ℕ} (hc : c ∈ W) (hd : d ∈ W) :
    loss f p W d < loss f p W c := by
  unfold loss
  rw [score_erase f p W d hd, score_erase f p W c hc]
  have hu : ∀ v : Voter, c ∈ v.A → 0 < f (util v W) := fun v hv => by
    have : 0 < util v W := Finset.card_pos.2 ⟨c, Finset.mem_inter.2 ⟨hv, hc⟩⟩
    obtain ⟨i, e⟩ : ∃ i, util v W = i + 1 := ⟨util v W - 1, by omega⟩
    rw [e]
    exact hf i
  obtain ⟨h1, u, hu', h2, h3⟩ := h
  refine List.sum_lt_sum _ _ (fun v hv => ?_) ⟨u, hu', ?_⟩
  · by_cases hdv : d ∈ v.A
    · rw [if_pos hdv, if_pos (h1 v hv hdv)]
    · rw [if_neg hdv]
      split_ifs with hcv
      · exact (mul_pos (hp.weight v hv) (hu v hcv)).le
      · exact le_rfl
  · rw [if_neg h3, if_pos h2]
    exact mul_pos (hp.weight u hu') (hu u h2)

theorem dominance_seq (hp : p.WF) {f : ℕ → ℚ} (hf : ∀ i, 0 < f (i + 1)) (h : MoreApproved p c d) {W : List ℕ} (hr : SeqRun f p W) :
    d ∈ W → c ∈ W := by
  induction hr with
  | nil => simp
  | @snoc W x _ _ h3 h4 ih =>
    intro hd
    rw [List.mem_append, List.mem_singleton] at hd ⊢
    rcases hd with hd | rfl
    · exact Or.inl (ih hd)
    · by_contra hc
      rw [not_or] at hc
      have h5 := gain_more hp hf h (W := W.toFinset) (fun h => hc.1 (List.mem_toFinset.1 h)) (fun h => h3 (List.mem_toFinset.1 h))
      exact absurd (h4 c (h.lt hp) hc.1) (not_le.2 h5)

theorem dominance_revseq (hp : p.WF) {f : ℕ → ℚ} (hf : ∀ i, 0 < f (i + 1)) (h : MoreApproved p c d) {W : Finset ℕ} (hr : RevRun f p W) :
    d ∈ W → c ∈ W := by
  induction hr with
  | all => exact fun _ => Finset.mem_range.2 (h.lt hp)
  | @remove W x _ h3 h4 ih =>
    intro hd
    have hd := (Finset.mem_erase.1 hd).2
    have hc := ih hd
    refine Finset.mem_erase.2 ⟨?_, hc⟩
    intro e
    rw [← e] at h4
    exact absurd (h4 d hd) (not_le.2 (loss_more hp hf h hc hd))

/-! ### E Pluribus Hugo -/

theorem backers_more (h : MoreApproved p c d) : backers p d ⊂ backers p c := by
  obtain ⟨h1, v, hv, h2, h3⟩ := h
  obtain ⟨i, rfl⟩ := List.get_of_mem hv
  rw [Finset.ssubset_iff_of_subset]
  · exact ⟨i, mem_backers.2 (List.mem_toFinset.1 h2), fun h => h3 (List.mem_toFinset.2 (mem_backers.1 h))⟩
  · intro j hj
    simp only [backers, Finset.mem_filter, Finset.mem_univ, true_and] at hj ⊢
    exact h1 _ (List.get_mem _ _) hj

theorem sum_backers_more (h : MoreApproved p c d) {F : Fin p.voters.length → ℚ} (hF : ∀ i ∈ backers p c, 0 < F i) :
    ∑ i ∈ backers p d, F i < ∑ i ∈ backers p c, F i := by
  have hs := backers_more h
  obtain ⟨i, h1, h2⟩ := Finset.exists_of_ssubset hs
  exact Finset.sum_lt_sum_of_subset hs.1 h1 h2 (hF i h1) (fun j hj _ => (hF j hj).le)

theorem eph_keeps (hp : p.WF) (h : MoreApproved p c d) {R : Finset ℕ} (hc : c ∈ R) (hd : d ∈ R) : ¬ EPHElim p R c := by
  rintro ⟨-, h1, h2⟩
  have hsdv : sdv p R d < sdv p R c := sum_backers_more h fun i hi => by
    refine div_pos (weight_pos hp i) ?_
    have : 0 < (appr p i ∩ R).card := Finset.card_pos.2 ⟨c, Finset.mem_inter.2 ⟨by simpa [backers] using hi, hc⟩⟩
    exact_mod_cast this
  have hlow : SdvLow p R d := by
    unfold SdvLow at h1 ⊢
    refine le_trans (Finset.card_le_card fun x hx => ?_) h1
    rw [Finset.mem_filter] at hx ⊢
    exact ⟨hx.1, hx.2.trans hsdv⟩
  have := h2 d hd hlow
  exact absurd this (not_le.2 (sum_backers_more h fun i _ => weight_pos hp i))

theorem dominance_eph (hp : p.WF) (h : MoreApproved p c d) {k : ℕ} {R W : Finset ℕ} (hr : EPHWinner p k R W) :
    (d ∈ W → d ∈ R) ∧ (c ∈ R → d ∈ W → c ∈ W) := by
  induction hr with
  | stop hE _ h2 h3 _ =>
    refine ⟨fun hd => h3 hd, fun hc hd => h2 (Finset.mem_sdiff.2 ⟨hc, fun hcE => ?_⟩)⟩
    exact eph_keeps hp h hc (h3 hd) ((hE c).1 hcE)
  | next hE _ _ ih =>
    refine ⟨fun hd => (Finset.mem_sdiff.1 (ih.1 hd)).1, fun hc hd => ih.2 (Finset.mem_sdiff.2 ⟨hc, fun hcE => ?_⟩) hd⟩
    exact eph_keeps hp h hc (Finset.mem_sdiff.1 (ih.1 hd)).1 ((hE c).1 hcE)

end

theorem elects_dominance {w : World} {p : Profile} (hp : p.WF) {k : ℕ} {alg ruleId : String}
    (h : DominanceRule w p k alg ruleId) :
    ∃ S, Elects w p k alg ruleId S ∧ ∀ A, S A → ∀ c d, MoreApproved p c d → d ∈ A → c ∈ A := by
  cases h with
  | av => exact ⟨_, .av, fun A hA c d => dominance_of_pareto hp hA.1.1 (av_pareto hp hA)⟩
  | sav => exact ⟨_, .sav, fun A hA c d => dominance_of_pareto hp hA.1.1 (sav_pareto hp hA)⟩
  | @thiele sid s hs hrule h =>
    refine ⟨_, .thiele hs ?_ h, fun A hA c d => dominance_of_pareto hp hA.1.1 (ThieleOpt.pareto (marginalFct_pos s ?_) hp hA)⟩
    · rcases hrule with h | h | h
      · exact Or.inl h
      · exact Or.inr (Or.inl h)
      · exact Or.inr (Or.inr (Or.inr h))
    · rcases hrule with rfl | rfl | ⟨b, rfl, hb⟩
      · trivial
      · trivial
      · show 0 < b
        rcases hb with h | ⟨-, h⟩ | ⟨-, h⟩ <;> linarith
  | lexcc h => exact ⟨_, .lexcc h, fun A hA c d => dominance_of_pareto hp hA.1.1 (lexcc_pareto hp hA)⟩
  | @seqThiele sid s hs hpos =>
    have hpos' := marginalFct_pos s hpos
    refine ⟨_, .seqThiele hs (marginalFct_nonneg s ?_), ?_⟩
    · rintro b rfl
      exact hpos
    · rintro A ⟨W, h1, -, rfl⟩ c d h
      simpa using dominance_seq hp hpos' h h1
  | @revseqThiele sid s hs hpos =>
    exact ⟨_, .revseqThiele hs, fun A hA c d h => dominance_revseq hp (marginalFct_pos s hpos) h hA.1⟩
  | lexminimaxav h =>
    exact ⟨_, .lexminimaxav h, fun A hA c d => dominance_of_pareto hp hA.1.1 (lexminimaxav_pareto hA)⟩
  | eph h1 h2 =>
    exact ⟨_, .eph h1 h2, fun A hA c d h => (dominance_eph hp h hA).2 (Finset.mem_range.2 (h.lt hp))⟩

/-! ## Unapproved candidates come last -/

section
variable {p : Profile}

theorem firstSet_of_dominance {A : Finset ℕ} (h : ∀ c d, MoreApproved p c d → d ∈ A → c ∈ A) : FirstSet p A := by
  intro d hd hu c _ hc
  refine h c d ⟨fun v hv hdv => absurd hdv (hu v hv), ?_⟩ hd
  unfold Unapproved at hc
  push Not at hc
  obtain ⟨v, hv, h1⟩ := hc
  exact ⟨v, hv, h1, hu v hv⟩

theorem first_phragmen {W₀ : List ℕ} {x₀ : VoterMap p} (h0 : FirstSet p W₀.toFinset) {W : List ℕ} {x : VoterMap p}
    (h : Run (PhragBest p) (phragUpd p) W₀ x₀ W x) : FirstSet p W.toFinset := by
  induction h with
  | start => exact h0
  | @step W x e _ hb ih =>
    intro d hd hu c hc hca
    rw [List.mem_toFinset, List.mem_append, List.mem_singleton] at hd ⊢
    by_cases hcW : c ∈ W
    · exact Or.inl hcW
    · rcases hd with hd | rfl
      · exact absurd (List.mem_toFinset.1 (ih d (List.mem_toFinset.2 hd) hu c hc hca)) hcW
      · rcases hb.2.2 with ⟨h1, -⟩ | h1
        · exact absurd hu (approved_iff.2 h1)
        · exact absurd (unapproved_iff.2 (h1 c hc hcW)) hca

theorem approved_of_price {b : VoterMap p} {c : ℕ} {q : ℚ} (h : IsPrice p b c q) : ¬ Unapproved p c := by
  rw [unapproved_iff]
  intro e
  have := h.1
  unfold payments at this
  rw [e, Finset.sum_empty] at this
  exact absurd this zero_ne_one

theorem approved_mes {b₀ : VoterMap p} {W : List ℕ} {b : VoterMap p} (h : Run (MESBest p) (mesUpd p) [] b₀ W b) :
    ∀ d ∈ W, ¬ Unapproved p d := by
  induction h with
  | start => simp
  | @step W b c _ hb ih =>
    intro d hd
    rw [List.mem_append, List.mem_singleton] at hd
    rcases hd with hd | rfl
    · exact ih d hd
    · obtain ⟨q, hq, -⟩ := hb.2.2
      exact approved_of_price hq

theorem candScore_more (hp : p.WF) {c d : ℕ} (h : MoreApproved p c d) : candScore .av p d < candScore .av p c :=
  sum_more (F := fun v => v.weight) (fun v hv => (hp.weight v hv).le) (fun v hv _ => hp.weight v hv) h

theorem first_mes (hp : p.WF) {k : ℕ} {completion : Completion} {r : ℚ} {A : Finset ℕ} (h : MESWinner p k completion r A) :
    FirstSet p A := by
  obtain ⟨W, b, h1, h2⟩ := h
  have hW : ∀ d ∈ W.toFinset, ¬ Unapproved p d := fun d hd => approved_mes h1 d (List.mem_toFinset.1 hd)
  rcases h2 with ⟨-, rfl⟩ | ⟨-, -, h3⟩
  · exact firstSet_of_subset hW
  · cases completion with
    | none =>
      have : A = W.toFinset := h3
      rw [this]
      exact firstSet_of_subset hW
    | seqphragmen =>
      obtain ⟨V, x, h4, -, rfl⟩ := h3
      exact first_phragmen (firstSet_of_subset hW) h4
    | av =>
      obtain ⟨h4, h5, h6⟩ := h3
      intro d hd hu c hlt hca
      have hm : MoreApproved p c d := by
        unfold Unapproved at hca
        push Not at hca
        obtain ⟨v, hv, h1⟩ := hca
        exact ⟨fun v hv hdv => absurd hdv (hu v hv), v, hv, h1, hu v hv⟩
      by_contra hc
      have h7 := h6 (replaced A c d) (replaced_committee h4 hd hc hlt)
        (fun x hx => mem_replaced.2 (Or.inr ⟨h5 hx, fun e => hW x hx (e ▸ hu)⟩))
      rw [sum_replaced _ hd hc] at h7
      have := candScore_more hp hm
      linarith
    | increment => exact absurd h3 id
    | other _ => exact absurd h3 id

theorem approved_of_loads {A : Finset ℕ} {x : Fin p.voters.length → ℕ → ℚ} (h : IsLoadDistribution p A x) : ∀ d ∈ A, ¬ Unapproved p d := by
  intro d hd hu
  have := h.one d hd
  rw [Finset.sum_eq_zero (fun i _ => by
    by_cases hx : x i d = 0
    · rw [hx, mul_zero]
    · exact absurd (h.approved i d hx).1 (hu _ (List.get_mem _ i)))] at this
  exact absurd this zero_ne_one

theorem smallest_card (S : Finset ℕ) (r : ℕ) (h : r ≤ S.card) : (smallest S r).card = r := by
  induction S using Finset.induction_on_min generalizing r with
  | empty =>
    have : r = 0 := by simpa using h
    rw [this, smallest_zero]
    rfl
  | insert a S ha ih =>
    have hn : a ∉ S := fun h => lt_irrefl _ (ha a h)
    cases r with
    | zero => rw [smallest_zero]; rfl
    | succ r =>
      rw [Finset.card_insert_of_notMem hn] at h
      rw [smallest_insert ha, Finset.card_insert_of_notMem (fun h => hn (smallest_subset S r h)), ih r (by omega)]

theorem dictate_spec {k : ℕ} (C A : Finset ℕ) (hC : C.card ≤ k) :
    C ⊆ dictate k C A ∧ dictate k C A ⊆ C ∪ A ∧ (dictate k C A).card ≤ k ∧ (A ⊆ dictate k C A ∨ (dictate k C A).card = k) := by
  unfold dictate
  split_ifs with h
  · exact ⟨Finset.subset_union_left, subset_rfl, h, Or.inl Finset.subset_union_right⟩
  · have hdis : Disjoint C (A \ C) := Finset.disjoint_sdiff
    have hle : k - C.card ≤ (A \ C).card := by
      rw [← Finset.union_sdiff_self_eq_union, Finset.card_union_of_disjoint hdis] at h
      omega
    have hcard : (C ∪ smallest (A \ C) (k - C.card)).card = k := by
      rw [Finset.card_union_of_disjoint (hdis.mono_right (smallest_subset _ _)), smallest_card _ _ hle]
      omega
    exact ⟨Finset.subset_union_left, Finset.union_subset_union subset_rfl ((smallest_subset _ _).trans Finset.sdiff_subset), hcard.le,
      Or.inr hcard⟩

theorem dictateAll_spec {k : ℕ} (As : List (Finset ℕ)) : ∀ C : Finset ℕ, C.card ≤ k →
    C ⊆ As.foldl (dictate k) C ∧ (∀ x ∈ As.foldl (dictate k) C, x ∈ C ∨ ∃ A ∈ As, x ∈ A) ∧ (As.foldl (dictate k) C).card ≤ k ∧
      ((∀ A ∈ As, A ⊆ As.foldl (dictate k) C) ∨ (As.foldl (dictate k) C).card = k) := by
  induction As with
  | nil => exact fun C hC => ⟨subset_rfl, fun x hx => Or.inl hx, hC, Or.inl (by simp)⟩
  | cons A As ih =>
    intro C hC
    obtain ⟨h1, h2, h3, h4⟩ := dictate_spec C A hC
    obtain ⟨g1, g2, g3, g4⟩ := ih (dictate k C A) h3
    simp only [List.foldl_cons]
    refine ⟨h1.trans g1, fun x hx => ?_, g3, ?_⟩
    · rcases g2 x hx with h | ⟨B, hB, h⟩
      · rcases Finset.mem_union.1 (h2 h) with h | h
        · exact Or.inl h
        · exact Or.inr ⟨A, List.mem_cons_self, h⟩
      · exact Or.inr ⟨B, List.mem_cons_of_mem _ hB, h⟩
    · rcases h4 with h4 | h4
      · rcases g4 with g4 | g4
        · left
          intro B hB
          rcases List.mem_cons.1 hB with rfl | hB
          · exact h4.trans g1
          · exact g4 B hB
        · exact Or.inr g4
      · right
        have := Finset.card_le_card g1
        omega

theorem first_rsd {k : ℕ} {A : Finset ℕ} (h : RsdOutcome p k A) : FirstSet p A := by
  obtain ⟨hA, As, hperm, hsub⟩ := h
  obtain ⟨-, h2, -, h4⟩ := dictateAll_spec (k := k) As ∅ (by simp)
  rcases h4 with h4 | h4
  · intro d _ _ c _ hc
    unfold Unapproved at hc
    push Not at hc
    obtain ⟨v, hv, h1⟩ := hc
    exact hsub (h4 v.A (hperm.mem_iff.2 (List.mem_map_of_mem hv)) h1)
  · have : dictateAll k As = A := Finset.eq_of_subset_of_card_le hsub (by rw [hA.2]; exact h4.ge)
    rw [← this]
    refine firstSet_of_subset fun d hd hu => ?_
    rcases h2 d hd with h | ⟨B, hB, h⟩
    · simp at h
    · obtain ⟨v, hv, rfl⟩ := List.mem_map.1 (hperm.mem_iff.1 hB)
      exact hu v hv h

theorem first_load {k : ℕ} {A : Finset ℕ} (h : LoadCommittee p k A) : FirstSet p A := by
  rcases h.2 with h | h
  · exact firstSet_of_subset fun d hd => mem_approvedSet_iff.1 (h hd)
  · exact fun d _ _ c _ hc => h (mem_approvedSet_iff.2 hc)

end

theorem elects_approved_first {w : World} {p : Profile} (hp : p.WF) {k : ℕ} {alg ruleId : String}
    (h : ApprovedFirstRule w p k alg ruleId) : ∃ S, Elects w p k alg ruleId S ∧ ∀ A, S A → FirstSet p A := by
  cases h with
  | dominance h =>
    obtain ⟨S, h1, h2⟩ := elects_dominance hp h
    exact ⟨S, h1, fun A hA => firstSet_of_dominance (h2 A hA)⟩
  | seqphragmen h1 h2 =>
    refine ⟨_, .seqphragmen h1 h2, ?_⟩
    rintro A ⟨W, x, hr, -, rfl⟩
    exact first_phragmen (fun d hd => by simp at hd) hr
  | minimaxphragmen h1 h2 => exact ⟨_, .minimaxphragmenTol h1 h2, fun A hA => first_load hA.1⟩
  | leximaxphragmen h1 h2 =>
    refine ⟨_, .leximaxphragmen h1 h2, ?_⟩
    rintro A ⟨bounds, v, -, -, -, -, -, x, hx, -⟩
    exact firstSet_of_subset (approved_of_loads hx)
  | maximinSupport h1 h2 =>
    refine ⟨_, .maximinSupport h1 h2, ?_⟩
    rintro A ⟨W, s, hr, -, rfl⟩
    exact first_maximin hp hr
  | equalShares h h1 h2 => exact ⟨_, .equalShares h h1 h2, fun A hA => first_mes hp hA⟩
  | equalSharesAv h => exact ⟨_, .equalSharesAv h, fun A hA => first_mes hp hA⟩
  | equalSharesIncrement h h1 =>
    refine ⟨_, .equalSharesIncrement h h1, ?_⟩
    rintro A (⟨-, -, h3⟩ | ⟨-, inc, W, -, ⟨b, hr, -⟩, -, rfl, -⟩)
    · intro d _ _ c _ hc
      obtain ⟨i, hi⟩ := approved_iff.1 hc
      exact h3 i (mem_appr.2 (mem_backers.1 hi))
    · exact firstSet_of_subset fun d hd => approved_mes hr.run d (List.mem_toFinset.1 hd)
  | equalSharesNone h h1 => exact ⟨_, .equalSharesNone h h1, fun A hA => first_mes hp hA⟩
  | rsd h => exact ⟨_, .rsd h, fun A hA => first_rsd hA⟩

/-! ## Replacing a member by a candidate with more supporters -/

section
variable {p : Profile} {c d : ℕ} {A : Finset ℕ}

theorem util_replaced_le (h : AsApproved p c d) (hd : d ∈ A) (hc : c ∉ A) {v : Voter} (hv : v ∈ p.voters) :
    util v A ≤ util v (replaced A c d) := by
  have h1 := util_replaced v hd hc
  have h2 := h v hv
  split_ifs at h1 <;> first | omega | exact absurd (h2 ‹_›) ‹_›

theorem dist_replaced_le (h : AsApproved p c d) (hd : d ∈ A) (hc : c ∉ A) {v : Voter} (hv : v ∈ p.voters) :
    dist v (replaced A c d) ≤ dist v A := by
  have h1 := dist_util v A
  have h2 := dist_util v (replaced A c d)
  have h3 := util_replaced_le h hd hc hv
  have h4 : (replaced A c d).card = A.card := by
    unfold replaced
    rw [Finset.card_insert_of_notMem (fun h => hc (Finset.mem_of_mem_erase h)), Finset.card_erase_of_mem hd]
    have : 0 < A.card := Finset.card_pos.2 ⟨d, hd⟩
    omega
  omega

variable (h : AsApproved p c d) (hlt : c < p.numCand) (hd : d ∈ A) (hc : c ∉ A)
include h hlt hd hc

theorem replace_sep (hp : p.WF) (s : SepRule) {k : ℕ} (hA : SepOpt s p k A) : SepOpt s p k (replaced A c d) := by
  refine ⟨replaced_committee hA.1 hd hc hlt, fun B hB => (hA.2 B hB).trans ?_⟩
  rw [sum_replaced _ hd hc]
  have : candScore s p d ≤ candScore s p c := by
    refine List.sum_le_sum fun v hv => ?_
    have h1 := h v hv
    have h2 := (hp.weight v hv).le
    have h3 : 0 ≤ v.weight / (v.A.card : ℚ) := div_nonneg h2 (by positivity)
    cases s <;> split_ifs <;> first | exact le_rfl | assumption | exact absurd (h1 ‹_›) ‹_›
  linarith

theorem replace_thiele (hp : p.WF) {f : ℕ → ℚ} (hf : ∀ i, 0 ≤ f i) {k : ℕ} (hA : ThieleOpt f p k A) : ThieleOpt f p k (replaced A c d) := by
  refine ⟨replaced_committee hA.1 hd hc hlt, fun B hB => (hA.2 B hB).trans ?_⟩
  refine List.sum_le_sum fun v hv => ?_
  exact mul_le_mul_of_nonneg_left (Finset.sum_le_sum_of_subset_of_nonneg
    (Finset.range_subset_range.2 (util_replaced_le h hd hc hv)) (fun i _ _ => hf _)) (hp.weight v hv).le

theorem replace_lexcc (hp : p.WF) {k : ℕ} (hA : LexccOpt p k A) : LexccOpt p k (replaced A c d) := by
  refine ⟨replaced_committee hA.1 hd hc hlt, fun B hB hlt' => hA.2 B hB (lt_of_le_of_lt ?_ hlt')⟩
  unfold coverageVector
  rw [← not_lt, map_range_lt_iff]
  rintro ⟨i, -, -, h2⟩
  refine absurd h2 (not_lt.2 (List.sum_le_sum fun v hv => ?_))
  have h3 := util_replaced_le h hd hc hv
  have h4 := (hp.weight v hv).le
  split_ifs <;> first | omega | exact le_rfl | assumption

theorem replace_minimaxav {k : ℕ} (hA : MinimaxavOpt p k A) : MinimaxavOpt p k (replaced A c d) :=
  ⟨replaced_committee hA.1 hd hc hlt, fun B hB e he v hv => (dist_replaced_le h hd hc hv).trans (hA.2 B hB e he v hv)⟩

theorem replace_lexminimaxav {k : ℕ} (hA : LexminimaxavOpt p k A) : LexminimaxavOpt p k (replaced A c d) := by
  refine ⟨replaced_committee hA.1 hd hc hlt, fun B hB hlt' => hA.2 B hB (lt_of_lt_of_le hlt' ?_)⟩
  rw [← not_lt]
  intro hl
  obtain ⟨e, -, h2, -⟩ := lt_cnt (l := distVector p A) (l' := distVector p (replaced A c d))
    (by rw [length_distVector, length_distVector]) (Multiset.pairwise_sort _ _) (Multiset.pairwise_sort _ _) hl
  have hcv : ∀ (A : Finset ℕ), cntLe e (distVector p A) = (p.voters.map (fun v => dist v A)).countP (fun x => decide (x ≤ e)) := by
    intro A
    unfold cntLe
    have : (distVector p A).Perm (p.voters.map (fun v => dist v A)) := by
      rw [← Multiset.coe_eq_coe]
      exact Multiset.sort_eq _ _
    exact this.countP_eq _
  rw [hcv, hcv, List.countP_map, List.countP_map] at h2
  refine absurd h2 (not_lt.2 (List.countP_mono_left fun v hv h3 => ?_))
  have := dist_replaced_le h hd hc hv
  simp only [Function.comp, decide_eq_true_eq] at h3 ⊢
  omega

theorem replace_monroe {k : ℕ} (hA : MonroeOpt p k A) : MonroeOpt p k (replaced A c d) := by
  obtain ⟨h1, φ, h2, h3⟩ := hA
  have hcom := replaced_committee h1 hd hc hlt
  have hcd : c ≠ d := fun e => hc (e ▸ hd)
  refine ⟨hcom, fun i => if φ i = d then c else φ i, ⟨fun i => ?_, fun x hx => ?_⟩, fun B ψ hB hψ => (h3 B ψ hB hψ).trans ?_⟩
  · refine mem_replaced.2 ?_
    dsimp only
    split_ifs with h4
    · exact Or.inl rfl
    · exact Or.inr ⟨h2.1 i, h4⟩
  · rw [hcom.2, ← h1.2]
    rcases mem_replaced.1 hx with rfl | ⟨h4, h5⟩
    · have : (Finset.univ.filter (fun i => (if φ i = d then x else φ i) = x)) = Finset.univ.filter (fun i => φ i = d) := by
        refine Finset.filter_congr fun i _ => ?_
        split_ifs with h6
        · simp [h6]
        · exact ⟨fun e => absurd (e ▸ h2.1 i) hc, fun e => absurd e h6⟩
      rw [this]
      exact h2.2 d hd
    · have : (Finset.univ.filter (fun i => (if φ i = d then c else φ i) = x)) = Finset.univ.filter (fun i => φ i = x) := by
        refine Finset.filter_congr fun i _ => ?_
        split_ifs with h6
        · rw [h6]
          exact ⟨fun e => absurd (e ▸ h4) hc, fun e => absurd e.symm h5⟩
        · rfl
      rw [this]
      exact h2.2 x h4
  · unfold represented
    refine Finset.card_le_card fun i hi => ?_
    rw [Finset.mem_filter] at hi ⊢
    refine ⟨hi.1, ?_⟩
    show (if φ i = d then c else φ i) ∈ appr p i
    split_ifs with h6
    · exact h _ (List.get_mem _ i) (h6 ▸ hi.2)
    · exact hi.2

theorem replace_minimaxphragmen {k : ℕ} (hA : MinimaxPhragmenOpt 0 p k A) : MinimaxPhragmenOpt 0 p k (replaced A c d) := by
  obtain ⟨⟨h1, h2⟩, h3⟩ := hA
  have hcd : c ≠ d := fun e => hc (e ▸ hd)
  have hc' : c ∉ A.erase d := fun h => hc (Finset.mem_of_mem_erase h)
  refine ⟨⟨replaced_committee h1 hd hc hlt, ?_⟩, fun B t hB hw => ?_⟩
  · rcases h2 with h2 | h2
    · left
      intro x hx
      rcases mem_replaced.1 hx with rfl | ⟨hx, -⟩
      · have := mem_approvedSet_iff.1 (h2 hd)
        exact mem_approvedSet_iff.2 (fun hu => this (fun v hv hdv => hu v hv (h v hv hdv)))
      · exact h2 hx
    · right
      intro x hx
      refine mem_replaced.2 (Or.inr ⟨h2 hx, ?_⟩)
      rintro rfl
      refine hc (h2 (mem_approvedSet_iff.2 fun hu => mem_approvedSet_iff.1 hx (fun v hv hdv => hu v hv (h v hv hdv))))
  · obtain ⟨x, hx, hxt⟩ := h3 B t hB hw
    let y : Fin p.voters.length → ℕ → ℚ := fun i e => if e = c then x i d else if e = d then 0 else x i e
    have hy : ∀ i e, y i e = if e = c then x i d else if e = d then 0 else x i e := fun _ _ => rfl
    refine ⟨y, ⟨fun i e => ?_, fun i e he => ?_, fun e he => ?_⟩, fun i => ?_⟩
    · rw [hy]
      split_ifs
      · exact hx.nonneg _ _
      · exact le_rfl
      · exact hx.nonneg _ _
    · rw [hy] at he
      split_ifs at he with h4 h5
      · subst h4
        exact ⟨h _ (List.get_mem _ i) (hx.approved i d he).1, mem_replaced.2 (Or.inl rfl)⟩
      · exact absurd rfl he
      · exact ⟨(hx.approved i e he).1, mem_replaced.2 (Or.inr ⟨(hx.approved i e he).2, h5⟩)⟩
    · simp only [hy]
      rcases mem_replaced.1 he with rfl | ⟨he, h5⟩
      · simpa using hx.one d hd
      · rw [← hx.one e he]
        refine Finset.sum_congr rfl fun i _ => ?_
        rw [if_neg (show ¬ e = c from fun e' => hc (e' ▸ he)), if_neg h5]
    · refine le_trans (le_of_eq ?_) (hxt i)
      unfold replaced
      rw [Finset.sum_insert hc', ← Finset.add_sum_erase A _ hd, hy, if_pos rfl]
      congr 1
      refine Finset.sum_congr rfl fun e he => ?_
      obtain ⟨h5, h6⟩ := Finset.mem_erase.1 he
      rw [hy, if_neg (show ¬ e = c from fun e' => hc (e' ▸ h6)), if_neg h5]

end

theorem elects_replacement {w : World} {p : Profile} (hp : p.WF) {k : ℕ} {alg ruleId : String}
    (h : ReplacementRule w p k alg ruleId) : ∃ S, Elects w p k alg ruleId S ∧
      ∀ A, S A → ∀ c d, AsApproved p c d → c < p.numCand → d ∈ A → c ∉ A → S (replaced A c d) := by
  cases h with
  | av => exact ⟨_, .av, fun A hA c d h1 h2 h3 h4 => replace_sep h1 h2 h3 h4 hp _ hA⟩
  | sav => exact ⟨_, .sav, fun A hA c d h1 h2 h3 h4 => replace_sep h1 h2 h3 h4 hp _ hA⟩
  | @thiele sid s hs hrule h =>
    refine ⟨_, .thiele hs hrule h, fun A hA c d h1 h2 h3 h4 => replace_thiele h1 h2 h3 h4 hp (marginalFct_nonneg s ?_) hA⟩
    rintro b rfl
    rcases hrule with h | h | h | ⟨b', e, hb⟩
    · cases h
    · cases h
    · cases h
    · cases e
      rcases hb with h | ⟨-, h⟩ | ⟨-, h⟩ <;> linarith
  | lexcc h => exact ⟨_, .lexcc h, fun A hA c d h1 h2 h3 h4 => replace_lexcc h1 h2 h3 h4 hp hA⟩
  | minimaxphragmen g1 g2 g3 =>
    exact ⟨_, .minimaxphragmen g1 g2 g3, fun A hA c d h1 h2 h3 h4 => replace_minimaxphragmen h1 h2 h3 h4 hA⟩
  | monroe h => exact ⟨_, .monroe h, fun A hA c d h1 h2 h3 h4 => replace_monroe h1 h2 h3 h4 hA⟩
  | minimaxav => exact ⟨_, .minimaxav, fun A hA c d h1 h2 h3 h4 => replace_minimaxav h1 h2 h3 h4 hA⟩
  | lexminimaxav h => exact ⟨_, .lexminimaxav h, fun A hA c d h1 h2 h3 h4 => replace_lexminimaxav h1 h2 h3 h4 hA⟩
  | trivial => exact ⟨_, .trivial, fun A hA c d _ h2 h3 h4 => replaced_committee hA h3 h4 h2⟩

/-! ## The theorems -/

section
variable (w : World) (hw : w.Exact) (p : Profile) (hp : p.WF) (a : Args) {ruleId alg : String}
  (hal : prologue w.env ruleId p a = .ok alg)
include hw hp hal

/-- **C101** Dominance: AV, SAV, PAV, SLAV, the geometric rules, lex-CC, lex-minimax-AV, their sequential and reverse sequential
versions and E Pluribus Hugo never elect a candidate without electing every candidate whose supporters are a proper superset. -/
theorem C101_dominance (h : DominanceRule w p a.k alg ruleId) :
    ∃ cs, compute w ruleId p a.committeesize none a.kw = .ok cs ∧ cs ≠ [] ∧ ∀ W ∈ cs, RespectsDominance p W := by
  obtain ⟨S, hS, hdom⟩ := elects_dominance hp h
  obtain ⟨cs, h1, h2, -⟩ := C31_valid w hw p hp a ruleId alg hal hS
  refine ⟨cs, h1, h2, fun W hW c d hm hd => ?_⟩
  have := hdom _ (answers_mem (C31_compute w hw p hp a ruleId alg hal hS) h1 hW) c d hm (List.mem_toFinset.2 hd)
  exact List.mem_toFinset.1 this

/-- **C102** Candidates approved by nobody are elected only after all other candidates. -/
theorem C102_approved_first (h : ApprovedFirstRule w p a.k alg ruleId) :
    ∃ cs, compute w ruleId p a.committeesize none a.kw = .ok cs ∧ cs ≠ [] ∧ ∀ W ∈ cs, ApprovedFirst p W := by
  obtain ⟨S, hS, hfirst⟩ := elects_approved_first hp h
  obtain ⟨cs, h1, h2, -⟩ := C31_valid w hw p hp a ruleId alg hal hS
  refine ⟨cs, h1, h2, fun W hW d hd hu c hc hca => ?_⟩
  have := hfirst _ (answers_mem (C31_compute w hw p hp a ruleId alg hal hS) h1 hW) d (List.mem_toFinset.2 hd) hu c hc hca
  exact List.mem_toFinset.1 this

/-- **C101** Replacement: for the optimisation rules (also CC, Monroe, minimax-AV and minimax-Phragmén) a committee still wins if a member
is replaced by a candidate approved by all its supporters. -/
theorem C101_replacement (hall : AllCommittees a) (h : ReplacementRule w p a.k alg ruleId) :
    ∃ cs, compute w ruleId p a.committeesize none a.kw = .ok cs ∧ cs ≠ [] ∧ ClosedUnderReplacement p cs := by
  obtain ⟨S, hS, hrep⟩ := elects_replacement hp h
  obtain ⟨cs, h1, h2, -⟩ := C31_valid w hw p hp a ruleId alg hal hS
  have hans := C31_compute w hw p hp a ruleId alg hal hS
  refine ⟨cs, h1, h2, fun W hW c d hlt hm hd hc => ?_⟩
  have hSW := hrep _ (answers_mem hans h1 hW) c d hm hlt (List.mem_toFinset.2 hd) (fun h => hc (List.mem_toFinset.1 h))
  unfold Answers at hans
  rw [hall.1, hall.2] at hans
  obtain ⟨cs', e, -, hmem⟩ := hans
  rw [h1] at e
  obtain rfl := Except.ok.inj e
  obtain ⟨V, hV, e⟩ := (hmem _).2 hSW
  refine ⟨V, hV, fun x => ?_⟩
  rw [← List.mem_toFinset, e, mem_replaced, List.mem_toFinset]

end

/-! ### The hypotheses can be met -/

/-- In the profile {0, 1}, {1, 2} (weight 2) candidate 1 has more supporters than candidate 2. -/
example : MoreApproved exampleProfile 1 2 ∧ ¬ MoreApproved exampleProfile 2 0 := by
  unfold MoreApproved AsApproved
  decide +kernel

/-- Candidate 3 is approved by nobody. -/
example : Unapproved ⟨4, [⟨[0, 1], 1⟩, ⟨[1, 2], 2⟩], []⟩ 3 ∧ ¬ Unapproved ⟨4, [⟨[0, 1], 1⟩, ⟨[1, 2], 2⟩], []⟩ 1 := by
  unfold Unapproved
  decide +kernel

example (w : World) (hw : w.env = exampleEnv) :
    (∃ alg, prologue w.env "seqpav" exampleProfile { committeesize := 2, resolute := false } = .ok alg ∧
      DominanceRule w exampleProfile 2 alg "seqpav") ∧
    (∃ alg, prologue w.env "seqphragmen" exampleProfile { committeesize := 2, resolute := true } = .ok alg ∧
      ApprovedFirstRule w exampleProfile 2 alg "seqphragmen") ∧
    ∃ alg, prologue w.env "cc" exampleProfile { committeesize := 2, algorithm := "brute-force", resolute := false } = .ok alg ∧
      ReplacementRule w exampleProfile 2 alg "cc" := by
  refine ⟨⟨"standard", by rw [hw]; decide +kernel, .seqThiele (sid := "pav") (s := .pav) rfl trivial⟩,
    ⟨"standard-fractions", by rw [hw]; decide +kernel, .seqphragmen ?_ ?_⟩,
    ⟨"brute-force", by rw [hw]; decide +kernel, .thiele (sid := "cc") (s := .cc) rfl (Or.inr (Or.inr (Or.inl rfl))) (fun h => absurd h (by decide))⟩⟩
  · exact approversAtLeastOne_of_weights (by decide +kernel)
  · exact Or.inl rfl

end Abc
