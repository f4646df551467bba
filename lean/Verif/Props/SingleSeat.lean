import Verif.Spec.SingleSeat
import Verif.Props.MoreAxioms
import Verif.Props.Neutrality

/-!
# C110 Elections with a single seat
-/

namespace Abc

open Spec

section
variable {p : Profile}

/-- The total weight of the supporters of `c`, as a sum over the voters. -/
theorem sum_backers_mul (p : Profile) (c : ℕ) (y : ℚ) :
    (p.voters.map (fun v => if c ∈ v.A then v.weight * y else 0)).sum = wt p (backers p c) * y := by
  rw [voters_sum_fin p (fun v => if c ∈ v.A then v.weight * y else 0)]
  unfold wt backers
  rw [Finset.sum_mul, Finset.sum_filter]
  rfl

theorem util_empty (v : Voter) : util v ∅ = 0 := by simp [util]

theorem score_empty (f : ℕ → ℚ) (p : Profile) : score f p ∅ = 0 := by
  unfold score
  simp [util_empty]

theorem score_single (f : ℕ → ℚ) (p : Profile) (c : ℕ) : score f p {c} = wt p (backers p c) * f 1 := by
  have h := score_insert f p ∅ c (by simp)
  rw [score_empty, sub_zero] at h
  rw [← LawfulSingleton.insert_empty_eq c, h, ← sum_backers_mul]
  simp [util_empty]

theorem candScore_av_wt (p : Profile) (c : ℕ) : candScore .av p c = wt p (backers p c) := by
  have := sum_backers_mul p c 1
  rw [mul_one] at this
  rw [← this]
  unfold candScore
  simp

theorem isCommittee_one {A : Finset ℕ} : IsCommittee p 1 A ↔ ∃ c, A = {c} ∧ c < p.numCand := by
  constructor
  · rintro ⟨h1, h2⟩
    obtain ⟨c, rfl⟩ := Finset.card_eq_one.1 h2
    exact ⟨c, rfl, Finset.mem_range.1 (h1 (Finset.mem_singleton_self c))⟩
  · rintro ⟨c, rfl, hc⟩
    exact ⟨by simpa using hc, Finset.card_singleton c⟩

/-- Rules that maximise something proportional to the approval weight of single candidates. -/
theorem opt_single {g : Finset ℕ → ℚ} {y : ℚ} (hy : 0 < y) (hg : ∀ c, g {c} = wt p (backers p c) * y) (A : Finset ℕ) :
    (IsCommittee p 1 A ∧ ∀ B, IsCommittee p 1 B → g B ≤ g A) ↔ SingleWinner p A := by
  constructor
  · rintro ⟨h1, h2⟩
    obtain ⟨c, rfl, hc⟩ := isCommittee_one.1 h1
    refine ⟨c, rfl, hc, fun d hd => ?_⟩
    have := h2 {d} (isCommittee_one.2 ⟨d, rfl, hd⟩)
    rw [hg, hg] at this
    exact le_of_mul_le_mul_right this hy
  · rintro ⟨c, rfl, hc, h⟩
    refine ⟨isCommittee_one.2 ⟨c, rfl, hc⟩, fun B hB => ?_⟩
    obtain ⟨d, rfl, hd⟩ := isCommittee_one.1 hB
    rw [hg, hg]
    exact mul_le_mul_of_nonneg_right (h d hd) hy.le

/-- Rules that elect one candidate after the other. -/
theorem run_length_one {σ : Type} {Best : List ℕ → σ → ℕ → Prop} {upd : List ℕ → σ → ℕ → σ} {s₀ s : σ} {W : List ℕ}
    (h : Run Best upd [] s₀ W s) : (W = [] ∧ s = s₀) ∨ W.length = 1 ∧ (∃ c, W = [c] ∧ Best [] s₀ c) ∨ 2 ≤ W.length := by
  induction h with
  | start => exact Or.inl ⟨rfl, rfl⟩
  | @step W s c _ hb ih =>
    right
    rcases ih with ⟨rfl, rfl⟩ | ⟨hl, -⟩ | hl
    · exact Or.inl ⟨rfl, c, rfl, hb⟩
    · right; simp [hl]
    · right; simp; omega

theorem run_single {σ : Type} {Best : List ℕ → σ → ℕ → Prop} {upd : List ℕ → σ → ℕ → σ} {s₀ : σ}
    (hB : ∀ c, Best [] s₀ c ↔ MostApproved p c) (A : Finset ℕ) : RunWinner Best upd s₀ 1 A ↔ SingleWinner p A := by
  constructor
  · rintro ⟨W, s, h, hl, rfl⟩
    rcases run_length_one h with ⟨rfl, -⟩ | ⟨-, c, rfl, hc⟩ | h2
    · simp at hl
    · exact ⟨c, by simp, (hB c).1 hc⟩
    · omega
  · rintro ⟨c, rfl, hc⟩
    exact ⟨_, _, .step .start ((hB c).2 hc), rfl, by simp⟩

theorem wt_backers_posN (hp : p.WF) {c : ℕ} (h : (backers p c).Nonempty) : 0 < wt p (backers p c) :=
  Finset.sum_pos (fun i _ => weight_pos hp i) h

/-- seq-Phragmén with equal start loads. -/
theorem phrag_single (hp : p.WF) (t : ℚ) (c : ℕ) : PhragBest p [] (fun _ => t) c ↔ MostApproved p c := by
  have hload : ∀ d, (backers p d).Nonempty → newLoad p (fun _ => t) d = 1 / wt p (backers p d) + t := by
    intro d hd
    have hpos := wt_backers_posN hp hd
    unfold newLoad
    rw [← Finset.sum_mul]
    change (1 + wt p (backers p d) * t) / wt p (backers p d) = _
    field_simp
  have hz : ∀ d, ¬ (backers p d).Nonempty → wt p (backers p d) = 0 := by
    intro d hd
    rw [Finset.not_nonempty_iff_eq_empty.1 hd]
    rfl
  constructor
  · rintro ⟨hc, -, h⟩
    refine ⟨hc, fun d hd => ?_⟩
    by_cases hdn : (backers p d).Nonempty
    · rcases h with ⟨hcn, h⟩ | h
      · have := h d hd (by simp) hdn
        rw [hload c hcn, hload d hdn] at this
        exact (one_div_le_one_div (wt_backers_posN hp hcn) (wt_backers_posN hp hdn)).1 (by linarith)
      · rw [h d hd (by simp)] at hdn
        exact absurd hdn (by simp)
    · rw [hz d hdn]
      exact wt_nonneg' hp _
  · rintro ⟨hc, h⟩
    refine ⟨hc, by simp, ?_⟩
    by_cases hcn : (backers p c).Nonempty
    · left
      refine ⟨hcn, fun d hd _ hdn => ?_⟩
      rw [hload c hcn, hload d hdn]
      have := (one_div_le_one_div (wt_backers_posN hp hcn) (wt_backers_posN hp hdn)).2 (h d hd)
      linarith
    · right
      intro d hd _
      by_contra hne
      have h1 := wt_backers_posN hp (Finset.nonempty_iff_ne_empty.2 hne)
      have h2 := h d hd
      rw [hz c hcn] at h2
      linarith

theorem lexcc_single (A : Finset ℕ) : LexccOpt p 1 A ↔ SingleWinner p A := by
  have hcov : ∀ c, coverage p 1 {c} = wt p (backers p c) * 1 := by
    intro c
    rw [← sum_backers_mul]
    unfold coverage
    congr 1
    refine List.map_congr_left fun v _ => ?_
    have : 1 ≤ util v {c} ↔ c ∈ v.A := by
      unfold util
      rw [Nat.one_le_iff_ne_zero, Ne, Finset.card_eq_zero, Finset.inter_singleton]
      by_cases h : c ∈ v.A <;> simp [h]
    by_cases h : c ∈ v.A
    · rw [if_pos (this.2 h), if_pos h, mul_one]
    · rw [if_neg (fun h' => h (this.1 h')), if_neg h]
  rw [← opt_single (g := coverage p 1) one_pos hcov]
  unfold LexccOpt
  have e : ∀ B, coverageVector p 1 B = [coverage p 1 B] := fun B => rfl
  simp only [e, List.cons_lt_cons_iff, List.not_lt_nil, and_false, or_false, not_lt]

theorem load_single (hp : p.WF) (hn : p.voters ≠ []) (c : ℕ) (t : ℚ) :
    LoadWithin p {c} t ↔ 0 ≤ t ∧ 1 ≤ t * wt p (backers p c) := by
  have hb : backersOf p {c} = backers p c := by
    unfold backersOf backers
    simp
  rw [C67_load_iff hp hn]
  refine and_congr_right fun ht => ?_
  constructor
  · intro h
    have := h {c} (Finset.Subset.refl _)
    rw [hb] at this
    simpa using this
  · intro h C hC
    rcases Finset.subset_singleton_iff.1 hC with rfl | rfl
    · simpa using mul_nonneg ht (wt_nonneg' hp _)
    · rw [hb]
      simpa using h

theorem mem_approvedSet {c : ℕ} : c ∈ approvedSet p ↔ (backers p c).Nonempty := by
  unfold approvedSet backers
  constructor
  · intro h
    obtain ⟨i, -, hi⟩ := Finset.mem_biUnion.1 h
    exact ⟨i, by simpa using hi⟩
  · rintro ⟨i, hi⟩
    exact Finset.mem_biUnion.2 ⟨i, Finset.mem_univ i, (Finset.mem_filter.1 hi).2⟩

theorem minimax_single (hp : p.WF) (hn : p.voters ≠ []) (ha : (approvedSet p).Nonempty) (A : Finset ℕ) :
    MinimaxPhragmenOpt 0 p 1 A ↔ SingleWinner p A := by
  constructor
  · rintro ⟨⟨h1, -⟩, h2⟩
    obtain ⟨c, rfl, hc⟩ := isCommittee_one.1 h1
    refine ⟨c, rfl, hc, fun d hd => ?_⟩
    by_cases hdn : (backers p d).Nonempty
    · have hpos := wt_backers_posN hp hdn
      have h3 := h2 {d} (1 / wt p (backers p d)) (isCommittee_one.2 ⟨d, rfl, hd⟩)
        ((load_single hp hn d _).2 ⟨by positivity, by rw [one_div, inv_mul_cancel₀ hpos.ne']⟩)
      rw [add_zero, load_single hp hn, one_div, inv_mul_eq_div, one_le_div hpos] at h3
      exact h3.2
    · rw [Finset.not_nonempty_iff_eq_empty.1 hdn]
      exact wt_nonneg' hp _
  · rintro ⟨c, rfl, hc, h⟩
    have hcn : (backers p c).Nonempty := by
      obtain ⟨d, hd⟩ := ha
      by_contra hcn
      have hdn := mem_approvedSet.1 hd
      obtain ⟨i, hi⟩ := hdn
      have h1 := h d (appr_lt hp (Finset.mem_filter.1 hi).2)
      rw [Finset.not_nonempty_iff_eq_empty.1 hcn] at h1
      have h2 := wt_backers_posN hp ⟨i, hi⟩
      have h3 : wt p (∅ : Group p) = 0 := rfl
      linarith
    refine ⟨⟨isCommittee_one.2 ⟨c, rfl, hc⟩, Or.inl ?_⟩, fun B t hB hload => ?_⟩
    · rw [Finset.singleton_subset_iff]
      exact mem_approvedSet.2 hcn
    · obtain ⟨d, rfl, hd⟩ := isCommittee_one.1 hB
      rw [load_single hp hn] at hload
      rw [add_zero, load_single hp hn]
      exact ⟨hload.1, hload.2.trans (mul_le_mul_of_nonneg_left (h d hd) hload.1)⟩

theorem maximin_single (hp : p.WF) (c : ℕ) : MaximinBest 0 p [] c ↔ MostApproved p c := by
  have hs : ∀ d t, SupportAtLeast p (insert d ([] : List ℕ).toFinset) t ↔ t ≤ wt p (backers p d) := by
    intro d t
    have hb : backersOf p {d} = backers p d := by
      unfold backersOf backers
      simp
    have e : insert d ([] : List ℕ).toFinset = {d} := rfl
    rw [e, C67_support_iff hp]
    constructor
    · intro h
      have := h {d} (Finset.Subset.refl _)
      rw [hb] at this
      simpa using this
    · intro h C hC
      rcases Finset.subset_singleton_iff.1 hC with rfl | rfl
      · simpa using wt_nonneg' hp _
      · rw [hb]
        simpa using h
  constructor
  · rintro ⟨hc, -, h⟩
    refine ⟨hc, fun d hd => ?_⟩
    have := h d hd (by simp) _ ((hs d _).2 le_rfl)
    rwa [hs, sub_zero] at this
  · rintro ⟨hc, h⟩
    refine ⟨hc, by simp, fun d hd _ t ht => ?_⟩
    rw [hs] at ht ⊢
    rw [sub_zero]
    exact ht.trans (h d hd)

theorem support_single (hp : p.WF) (c : ℕ) : SupportBest p [] (fun i => (p.voters.get i).weight) c ↔ MostApproved p c := by
  have hs : ∀ d, support p (fun i => (p.voters.get i).weight) d = wt p (backers p d) := by
    intro d
    unfold support wt
    rw [Finset.filter_true_of_mem fun i _ => weight_pos hp i]
  unfold SupportBest MostApproved
  simp only [hs, List.not_mem_nil, not_false_eq_true, true_and, forall_true_left]

theorem consensus_single (hp : p.WF) (c : ℕ) : ConsensusBest p [] (fun _ => 0) c ↔ MostApproved p c := by
  have : income p (fun _ => 0) = fun i => (p.voters.get i).weight := by
    funext i
    simp [income]
  unfold ConsensusBest
  rw [this]
  exact support_single hp c

theorem gm_single (hu : ∀ v ∈ p.voters, v.weight = 1) (c : ℕ) : GMBest p [] [] c ↔ MostApproved p c := by
  have h0 : unassigned p [] = Finset.univ := by
    unfold unassigned
    simp
  unfold GMBest MostApproved
  simp only [h0, Finset.univ_inter, unit_wt hu, Nat.cast_le, List.not_mem_nil, not_false_eq_true, true_and, forall_true_left]

theorem monroe_single (hu : ∀ v ∈ p.voters, v.weight = 1) (A : Finset ℕ) : MonroeOpt p 1 A ↔ SingleWinner p A := by
  have hbal : ∀ c φ, Balanced p {c} φ ↔ φ = fun _ => c := by
    intro c φ
    constructor
    · rintro ⟨h, -⟩
      funext i
      simpa using h i
    · rintro rfl
      refine ⟨by simp, fun d hd => ?_⟩
      rw [Finset.mem_singleton] at hd
      simp [hd]
  have hrep : ∀ c, represented p (fun _ => c) = (backers p c).card := fun c => rfl
  constructor
  · rintro ⟨h1, φ, hφ, h2⟩
    obtain ⟨c, rfl, hc⟩ := isCommittee_one.1 h1
    refine ⟨c, rfl, hc, fun d hd => ?_⟩
    have := h2 {d} _ (isCommittee_one.2 ⟨d, rfl, hd⟩) ((hbal d _).2 rfl)
    rw [(hbal c φ).1 hφ, hrep, hrep] at this
    rw [unit_wt hu, unit_wt hu]
    exact_mod_cast this
  · rintro ⟨c, rfl, hc, h⟩
    refine ⟨isCommittee_one.2 ⟨c, rfl, hc⟩, _, (hbal c _).2 rfl, fun B ψ hB hψ => ?_⟩
    obtain ⟨d, rfl, hd⟩ := isCommittee_one.1 hB
    rw [(hbal d ψ).1 hψ, hrep, hrep]
    have := h d hd
    rw [unit_wt hu, unit_wt hu] at this
    exact_mod_cast this

/-! ### Equal Shares -/

theorem payments_start (p : Profile) (r : ℚ) (c : ℕ) (q : ℚ) (hp : p.WF) :
    payments p (budgetOf p r) c q = min r q * wt p (backers p c) := by
  unfold payments budgetOf wt
  rw [Finset.mul_sum]
  refine Finset.sum_congr rfl fun i _ => ?_
  rw [mul_comm (p.voters.get i).weight r, ← min_mul_of_nonneg _ _ (weight_pos hp i).le]

theorem affordable_start (p : Profile) (r : ℚ) (c : ℕ) : Affordable p (budgetOf p r) c ↔ 1 ≤ wt p (backers p c) * r := by
  unfold Affordable budgetOf wt
  rw [Finset.sum_mul]

theorem isPrice_start (hp : p.WF) {r : ℚ} (c : ℕ) (q : ℚ) :
    IsPrice p (budgetOf p r) c q ↔ 0 < wt p (backers p c) ∧ 1 ≤ wt p (backers p c) * r ∧ q = 1 / wt p (backers p c) := by
  have hnn := wt_nonneg' hp (backers p c)
  unfold IsPrice
  simp only [payments_start p r c _ hp]
  constructor
  · rintro ⟨h1, h2⟩
    have hpos : 0 < wt p (backers p c) := by
      rcases hnn.lt_or_eq with h | h
      · exact h
      · rw [← h] at h1; simp at h1
    have hq : q ≤ r := by
      by_contra hlt
      push Not at hlt
      have := h2 r hlt
      rw [min_self] at this
      rw [min_eq_left hlt.le] at h1
      linarith
    rw [min_eq_right hq] at h1
    refine ⟨hpos, ?_, by rw [eq_div_iff hpos.ne', h1]⟩
    have := mul_le_mul_of_nonneg_right hq hnn
    linarith
  · rintro ⟨hpos, h1, rfl⟩
    have hle : 1 / wt p (backers p c) ≤ r := by
      rw [div_le_iff₀ hpos, mul_comm]
      exact h1
    refine ⟨by rw [min_eq_right hle, one_div, inv_mul_cancel₀ hpos.ne'], fun q' hq' => ?_⟩
    rw [min_eq_right (hq'.le.trans hle)]
    rwa [lt_div_iff₀ hpos] at hq'

/-- The first purchase of Equal Shares. -/
theorem mes_single (hp : p.WF) {r : ℚ} (hr : 0 < r) (c : ℕ) :
    MESBest p [] (budgetOf p r) c ↔ MostApproved p c ∧ Affordable p (budgetOf p r) c := by
  rw [affordable_start]
  constructor
  · rintro ⟨hc, -, q, hq, h⟩
    obtain ⟨h1, h2, rfl⟩ := (isPrice_start hp c q).1 hq
    refine ⟨⟨hc, fun d hd => ?_⟩, h2⟩
    by_contra hlt
    push Not at hlt
    have := h d hd (by simp) (1 / wt p (backers p d)) ((isPrice_start hp d _).2 ⟨h1.trans hlt, ?_, rfl⟩)
    · exact absurd ((one_div_le_one_div h1 (h1.trans hlt)).1 this) (not_le.2 hlt)
    · exact h2.trans (mul_le_mul_of_nonneg_right hlt.le hr.le)
  · rintro ⟨⟨hc, h⟩, h2⟩
    have hpos : 0 < wt p (backers p c) := by
      by_contra hle
      push Not at hle
      have := mul_le_mul_of_nonneg_right hle hr.le
      linarith
    refine ⟨hc, by simp, _, (isPrice_start hp c _).2 ⟨hpos, h2, rfl⟩, fun d hd _ q' hq' => ?_⟩
    obtain ⟨g1, g2, rfl⟩ := (isPrice_start hp d q').1 hq'
    exact (one_div_le_one_div hpos g1).2 (h d hd)

theorem mesWinner_single (hp : p.WF) {r : ℚ} (hr : 0 < r) {completion : Completion}
    (hC : ∀ A, Completed p 1 completion [] (budgetOf p r) A ↔ SingleWinner p A) (A : Finset ℕ) :
    MESWinner p 1 completion r A ↔ SingleWinner p A := by
  constructor
  · rintro ⟨W, b, h, ⟨hl, rfl⟩ | ⟨hl, hd, hA⟩⟩
    · rcases run_length_one h with ⟨rfl, -⟩ | ⟨-, c, rfl, hc⟩ | h2
      · simp at hl
      · exact ⟨c, by simp, ((mes_single hp hr c).1 hc).1⟩
      · omega
    · rcases run_length_one h with ⟨rfl, rfl⟩ | ⟨h1, -⟩ | h2
      · exact (hC A).1 hA
      · omega
      · omega
  · rintro ⟨c, rfl, hc⟩
    by_cases ha : Affordable p (budgetOf p r) c
    · exact ⟨_, _, .step .start ((mes_single hp hr c).2 ⟨hc, ha⟩), Or.inl ⟨rfl, by simp⟩⟩
    · refine ⟨[], _, .start, Or.inr ⟨by simp, fun d hd _ h => ha ?_, (hC _).2 ⟨c, rfl, hc⟩⟩⟩
      rw [affordable_start] at h ⊢
      exact h.trans (mul_le_mul_of_nonneg_right (hc.2 d hd) hr.le)

theorem completed_seqphragmen (hp : p.WF) (r : ℚ) (A : Finset ℕ) :
    Completed p 1 .seqphragmen [] (budgetOf p r) A ↔ SingleWinner p A := by
  have e : (fun i => - budgetOf p r i / (p.voters.get i).weight) = fun _ => -r := by
    funext i
    have := (weight_pos hp i).ne'
    unfold budgetOf
    field_simp
  unfold Completed
  simp only [e]
  exact run_single (phrag_single hp (-r)) A

theorem completed_av (p : Profile) (r : ℚ) (A : Finset ℕ) : Completed p 1 .av [] (budgetOf p r) A ↔ SingleWinner p A := by
  rw [← opt_single (g := fun B => ∑ c ∈ B, candScore .av p c) one_pos (fun c => by rw [Finset.sum_singleton, candScore_av_wt, mul_one])]
  unfold Completed
  simp

theorem increment_single (hp : p.WF) (hn : p.voters ≠ []) {A : Finset ℕ} (h : IncrementWinner p 1 A) : SingleWinner p A := by
  rcases h with ⟨-, h, -⟩ | ⟨-, inc, W, hinc, ⟨b, hb, -⟩, hl, rfl, -⟩
  · exact (opt_single (g := fun B => ∑ c ∈ B, candScore .av p c) one_pos
      (fun c => by rw [Finset.sum_singleton, candScore_av_wt, mul_one]) A).1 h
  · have ht := total_pos hp hn
    have hi : (0 : ℚ) < inc := by exact_mod_cast hinc
    cases hb with
    | start => simp at hl
    | @step V s c hV hbest _ =>
      have : V = [] := by
        rw [List.length_append, List.length_singleton] at hl
        exact List.length_eq_zero_iff.1 (by omega)
      subst this
      have hs : s = budgetOf p (inc / total p) := by
        generalize hnil : ([] : List ℕ) = V at hV
        cases hV with
        | start => rfl
        | step => simp at hnil
      subst hs
      exact ⟨c, by simp, ((mes_single hp (div_pos hi ht) c).1 hbest).1⟩

end

theorem elects_single {w : World} {p : Profile} (hp : p.WF) (hn : p.voters ≠ []) {alg ruleId : String} (h : SingleSeatRule w p alg ruleId) :
    ∃ S, Elects w p 1 alg ruleId S ∧ ∀ A, S A ↔ SingleWinner p A := by
  have hcard : ∀ c, c ∈ approvedSet p → 1 ≤ (approvedSet p).card := fun c h => Finset.card_pos.2 ⟨c, h⟩
  have hr : (0 : ℚ) < (1 : ℕ) / total p := by
    have := total_pos hp hn
    positivity
  cases h with
  | av => exact ⟨_, .av, opt_single one_pos (fun c => by rw [Finset.sum_singleton, candScore_av_wt, mul_one])⟩
  | @thiele _ s hs hok hcp =>
    have hpos : 0 < marginalFct s 1 := by
      rcases hok with rfl | rfl | rfl | ⟨b, rfl, hb⟩
      · norm_num [marginalFct]
      · norm_num [marginalFct]
      · norm_num [marginalFct]
      · have : 0 < b := by
          rcases hb with hb | ⟨-, hb⟩ | ⟨-, hb⟩ <;> linarith
        simp only [marginalFct]
        simp [this]
    exact ⟨_, .thiele hs hok hcp, opt_single hpos (score_single _ p)⟩
  | lexcc hg => exact ⟨_, .lexcc hg, lexcc_single⟩
  | @seqThiele sid s hs hprop =>
    have hpos : 0 < marginalFct s 1 := by
      cases s with
      | geom b =>
        have hb : 1 ≤ b := hprop
        have : 0 < b := by linarith
        simp only [marginalFct]
        simp [this]
      | atleast _ => exact absurd hprop id
      | _ => norm_num [marginalFct]
    refine ⟨_, .seqThiele hs (C16_nonneg_nonincreasing s hprop).1, fun A => ?_⟩
    have hg : ∀ c, gain (marginalFct s) p ([] : List ℕ).toFinset c = wt p (backers p c) * marginalFct s 1 := by
      intro c
      unfold gain
      rw [List.toFinset_nil, score_empty, sub_zero, LawfulSingleton.insert_empty_eq, score_single]
    constructor
    · rintro ⟨W, hW, hl, rfl⟩
      cases hW with
      | nil => simp at hl
      | @snoc V c _ hc _ h =>
        have : V = [] := by
          rw [List.length_append, List.length_singleton] at hl
          exact List.length_eq_zero_iff.1 (by omega)
        subst this
        refine ⟨c, by simp, hc, fun d hd => ?_⟩
        have := h d hd (by simp)
        rw [hg, hg] at this
        exact le_of_mul_le_mul_right this hpos
    · rintro ⟨c, rfl, hc, h⟩
      refine ⟨[] ++ [c], .snoc .nil hc (by simp) (fun d hd _ => ?_), rfl, by simp⟩
      rw [hg, hg]
      exact mul_le_mul_of_nonneg_right (h d hd) hpos.le
  | seqphragmen h1 h2 => exact ⟨_, .seqphragmen h1 h2, run_single (phrag_single hp 0)⟩
  | minimaxphragmen h1 h2 h3 => exact ⟨_, .minimaxphragmen h1 h2 (hcard _ h3.choose_spec), minimax_single hp hn h3⟩
  | maximinSupport h1 => exact ⟨_, .maximinSupport h1 (by norm_num), run_single (maximin_single hp)⟩
  | monroe hu => exact ⟨_, .monroe hu, monroe_single hu⟩
  | greedyMonroe hu => exact ⟨_, .greedyMonroe hu, run_single (gm_single hu)⟩
  | equalShares h h1 h2 => exact ⟨_, .equalShares h h1 h2, mesWinner_single hp hr (completed_seqphragmen hp _)⟩
  | equalSharesAv h => exact ⟨_, .equalSharesAv h, mesWinner_single hp hr (completed_av p _)⟩
  | enestroem h => exact ⟨_, .enestroem h, run_single (support_single hp)⟩
  | consensus h => exact ⟨_, .consensus h, run_single (consensus_single hp)⟩

/-- **C110** With a single seat the rules are approval voting: they elect the most approved candidate (all of them, in an irresolute call,
if there are several). -/
theorem C110_single_seat (w : World) (hw : w.Exact) (p : Profile) (hp : p.WF) (a : Args) (hk : a.committeesize = 1) {ruleId alg : String}
    (hal : prologue w.env ruleId p a = .ok alg) (h : SingleSeatRule w p alg ruleId) :
    Answers a (compute w ruleId p a.committeesize none a.kw) (SingleWinner p) := by
  have hv := validCall_of_prologue hal
  have h1 : a.k = 1 := by unfold Args.k; rw [hk]; rfl
  obtain ⟨S, hS, hiff⟩ := elects_single hp hv.voters h
  exact answers_congr hiff (C31_compute w hw p hp a _ alg hal (by rw [h1]; exact hS))

/-- **C110** In irresolute calls any two of these rules return the same list of committees, whatever algorithms they use. -/
theorem C110_same_result (w w' : World) (hw : w.Exact) (hw' : w'.Exact) (p : Profile) (hp : p.WF) (a a' : Args)
    (hk : a.committeesize = 1) (hk' : a'.committeesize = 1) (hr : a.resolute = false) (hr' : a'.resolute = false) (hm : a.max = none)
    (hm' : a'.max = none) {ruleId ruleId' alg alg' : String} (hal : prologue w.env ruleId p a = .ok alg)
    (hal' : prologue w'.env ruleId' p a' = .ok alg') (h : SingleSeatRule w p alg ruleId) (h' : SingleSeatRule w' p alg' ruleId') :
    compute w ruleId p a.committeesize none a.kw = compute w' ruleId' p a'.committeesize none a'.kw := by
  have h1 := C110_single_seat w hw p hp a hk hal h
  have h2 := C110_single_seat w' hw' p hp a' hk' hal' h'
  unfold Answers at h1 h2
  rw [hr, hm] at h1
  rw [hr', hm'] at h2
  obtain ⟨cs, e, hc, g⟩ := h1
  obtain ⟨cs', e', hc', g'⟩ := h2
  rw [e, e', canonical_ext hc hc' fun A => by rw [g, g']]

/-- **C110** Equal Shares with increment completion (resolute, ties by smallest index) elects a most approved candidate, too. -/
theorem C110_increment (w : World) (hw : w.Exact) (p : Profile) (hp : p.WF) (a : Args) (hk : a.committeesize = 1) {alg : String}
    (hal : prologue w.env "equal-shares-with-increment-completion" p a = .ok alg) (h1 : ApproversAtLeastOne p)
    (h2 : ExactAlg w.env alg) :
    ∃ cs, compute w "equal-shares-with-increment-completion" p a.committeesize none a.kw = .ok cs ∧ cs ≠ [] ∧
      ∀ W ∈ cs, ∃ c, W = [c] ∧ MostApproved p c := by
  have hv := validCall_of_prologue hal
  have hk1 : a.k = 1 := by unfold Args.k; rw [hk]; rfl
  have hE : Elects w p a.k alg "equal-shares-with-increment-completion" _ := .equalSharesIncrement h1 h2
  obtain ⟨cs, e, hne, -, hcom, -⟩ := C31_valid w hw p hp a _ alg hal hE
  refine ⟨cs, e, hne, fun W hW => ?_⟩
  have hWin := answers_mem (C31_compute w hw p hp a _ alg hal hE) e hW
  rw [hk1] at hWin
  obtain ⟨c, hc, hm⟩ := increment_single hp hv.voters hWin
  refine ⟨c, ?_, hm⟩
  have hl : (W.length : ℤ) = 1 := by rw [← hk]; exact (hcom W hW).2.2.2 (by decide)
  obtain ⟨x, rfl⟩ := List.length_eq_one_iff.1 (by exact_mod_cast hl)
  simp only [List.toFinset_cons, List.toFinset_nil, LawfulSingleton.insert_empty_eq, Finset.singleton_inj] at hc
  rw [hc]

/-! ## Examples -/

/-- Candidate 0 has approval weight 10, the others 8 each. -/
def singleExample : Profile := ⟨3, [⟨[0, 1], 5⟩, ⟨[0, 2], 5⟩, ⟨[1], 3⟩, ⟨[2], 3⟩], []⟩

/-- Non-vacuity: the hypotheses hold for concrete calls. -/
example (w : World) (hw : w.env = exampleEnv) : singleExample.WF ∧ MostApproved singleExample 0 ∧ ¬ MostApproved singleExample 1 ∧
    prologue w.env "rule-x" singleExample { committeesize := 1, algorithm := "standard-fractions", resolute := false }
      = .ok "standard-fractions" ∧ SingleSeatRule w singleExample "standard-fractions" "rule-x" ∧
    prologue w.env "pav" singleExample { committeesize := 1, resolute := false } = .ok "branch-and-bound" ∧
    SingleSeatRule w singleExample "branch-and-bound" "pav" ∧
    prologue w.env ("seq" ++ "cc") singleExample { committeesize := 1, resolute := false } = .ok "standard" ∧
    SingleSeatRule w singleExample "standard" ("seq" ++ "cc") := by
  refine ⟨⟨by decide, by decide, by decide, by decide⟩, ⟨by decide, by decide +kernel⟩, fun h => ?_, by rw [hw]; decide +kernel,
    .equalShares (by simp) (approversAtLeastOne_of_weights (by decide +kernel)) (Or.inl rfl), by rw [hw]; decide +kernel,
    .thiele (s := .pav) (by rw [hw]; decide +kernel) (Or.inl rfl) (by simp), by rw [hw]; decide +kernel,
    .seqThiele (s := .cc) (by rw [hw]; decide +kernel) trivial⟩
  have := h.2 0 (by decide)
  revert this
  decide +kernel

/-- **C110** Contrast: reverse sequential PAV removes the most approved candidate first; SAV prefers candidates on short ballots. -/
theorem C110_contrast :
    revseqThieleIrresolute (marginalFct .pav) singleExample (fun W c => W.erase c) 1 none = .ok [[1], [2]] ∧
    computeSeparable exampleEnv .av singleExample { committeesize := 1, resolute := false } = .ok [[0]] ∧
    computeSeparable exampleEnv .sav ⟨4, [⟨[0, 1, 2], 1⟩, ⟨[0, 1, 2], 1⟩, ⟨[3], 1⟩], []⟩ { committeesize := 1, resolute := false }
      = .ok [[3]] := by
  decide +kernel

end Abc
