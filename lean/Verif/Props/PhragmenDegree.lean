import Verif.Props.Guarantees

/-!
# C126: seq-Phragmén and the average satisfaction of groups
-/

namespace Abc

open Spec

section
variable {p : Profile}

/-- While the members of `G` agree on an unelected candidate, their total satisfaction is bounded from below by their loads and the
variance of their loads. -/
theorem degree_invariant (hp : p.WF) (G : Group p) {c : ℕ} (hc : c < p.numCand) (hG : ∀ i ∈ G, c ∈ appr p i) {W : List ℕ}
    {x : VoterMap p} (h : PRun p [] (fun _ => 0) W x) (hcW : c ∉ W) :
    2 * wt p G * ∑ i ∈ G, (p.voters.get i).weight * x i +
      wt p G * (wt p G * ∑ i ∈ G, (p.voters.get i).weight * x i ^ 2 - (∑ i ∈ G, (p.voters.get i).weight * x i) ^ 2) ≤
    4 * ∑ i ∈ G, (p.voters.get i).weight * sat p W.toFinset i := by
  induction h with
  | start => simp [sat]
  | @step W x d hrun hd ih =>
    have hcW' : c ∉ W := fun h => hcW (by simp [h])
    have ih := ih hcW'
    set D := G.filter (fun i => i ∈ backers p d) with hD
    set t := newLoad p x d with ht
    set m := wt p G with hm
    have hm0 : 0 ≤ m := wt_nonneg hp G
    have hGb : G ⊆ backers p c := fun i hi => mem_backers.2 (mem_appr.1 (hG i hi))
    have e1 : ∑ i ∈ G, (p.voters.get i).weight * phragUpd p W x d i =
        ∑ i ∈ G, (p.voters.get i).weight * x i + ∑ i ∈ D, (p.voters.get i).weight * (t - x i) := by
      rw [hD, Finset.sum_filter, ← Finset.sum_add_distrib]
      refine Finset.sum_congr rfl fun i _ => ?_
      unfold phragUpd
      split <;> ring
    have e2 : ∑ i ∈ G, (p.voters.get i).weight * phragUpd p W x d i ^ 2 =
        ∑ i ∈ G, (p.voters.get i).weight * x i ^ 2 + (2 * t * ∑ i ∈ D, (p.voters.get i).weight * (t - x i) -
          ∑ i ∈ D, (p.voters.get i).weight * (t - x i) ^ 2) := by
      rw [Finset.mul_sum, ← Finset.sum_sub_distrib, hD, Finset.sum_filter, ← Finset.sum_add_distrib]
      refine Finset.sum_congr rfl fun i _ => ?_
      unfold phragUpd
      split <;> ring
    have e3 : ∑ i ∈ G, (p.voters.get i).weight * (sat p (W ++ [d]).toFinset i : ℚ) =
        ∑ i ∈ G, (p.voters.get i).weight * (sat p W.toFinset i : ℚ) + ∑ i ∈ D, (p.voters.get i).weight := by
      rw [hD, Finset.sum_filter, ← Finset.sum_add_distrib]
      refine Finset.sum_congr rfl fun i _ => ?_
      have hins : (W ++ [d]).toFinset = insert d W.toFinset := by ext y; simp
      have hdW : d ∉ W.toFinset := fun h => hd.2.1 (List.mem_toFinset.1 h)
      unfold sat
      rw [hins]
      split
      · rename_i hi
        rw [Finset.inter_insert_of_mem (mem_appr.2 (mem_backers.1 hi)), Finset.card_insert_of_notMem fun h => hdW (Finset.mem_inter.1 h).2]
        push_cast
        ring
      · rename_i hi
        rw [Finset.inter_insert_of_notMem fun h => hi (mem_backers.2 (mem_appr.1 h))]
        ring
    rw [e1, e2, e3]
    set P := ∑ i ∈ G, (p.voters.get i).weight * x i with hP
    set Q := ∑ i ∈ G, (p.voters.get i).weight * x i ^ 2 with hQ
    set δ := ∑ i ∈ D, (p.voters.get i).weight * (t - x i) with hδ
    set ε := ∑ i ∈ D, (p.voters.get i).weight * (t - x i) ^ 2 with hε
    -- nobody in `D`: nothing changes; otherwise the group could not have bought `c` before
    have hfree : 0 ≤ δ ∧ δ * (m * t - P) ≤ δ := by
      by_cases hDn : D.Nonempty
      · obtain ⟨i0, hi0⟩ := hDn
        obtain ⟨hi0G, hi0d⟩ := Finset.mem_filter.1 hi0
        have hxd := load_le_newLoad hp hrun d hd.1 hd.2.1 ⟨i0, hi0d⟩
        have hxc := load_le_newLoad hp hrun c hc hcW' ⟨i0, hGb hi0G⟩
        have hδ0 : 0 ≤ δ := Finset.sum_nonneg fun i _ => mul_nonneg (weight_pos hp i).le (sub_nonneg.2 (hxd i))
        have htc : t ≤ newLoad p x c := by
          rcases hd.2.2 with ⟨_, h⟩ | h
          · exact h c hc hcW' ⟨i0, hGb hi0G⟩
          · have := h d hd.1 hd.2.1
            rw [this] at hi0d
            simp at hi0d
        have h1 : m * t - P ≤ 1 := by
          have e : m * t - P = ∑ i ∈ G, (p.voters.get i).weight * (t - x i) := by
            rw [hm, hP]
            unfold wt
            rw [Finset.sum_mul, ← Finset.sum_sub_distrib]
            exact Finset.sum_congr rfl fun i _ => by ring
          rw [e, ← newLoad_mul hp x c ⟨i0, hGb hi0G⟩]
          refine (Finset.sum_le_sum fun i _ => mul_le_mul_of_nonneg_left (sub_le_sub_right htc _) (weight_pos hp i).le).trans ?_
          exact Finset.sum_le_sum_of_subset_of_nonneg hGb fun i _ _ => mul_nonneg (weight_pos hp i).le (sub_nonneg.2 (hxc i))
        exact ⟨hδ0, by nlinarith⟩
      · rw [Finset.not_nonempty_iff_eq_empty] at hDn
        have : δ = 0 := by rw [hδ, hDn, Finset.sum_empty]
        rw [this]
        simp
    have hsq : 0 ≤ 4 * ∑ i ∈ D, (p.voters.get i).weight - 4 * m * δ + m ^ 2 * ε := by
      have : 4 * ∑ i ∈ D, (p.voters.get i).weight - 4 * m * δ + m ^ 2 * ε =
          ∑ i ∈ D, (p.voters.get i).weight * (2 - m * (t - x i)) ^ 2 := by
        rw [hδ, hε, Finset.mul_sum, Finset.mul_sum, Finset.mul_sum, ← Finset.sum_sub_distrib, ← Finset.sum_add_distrib]
        exact Finset.sum_congr rfl fun i _ => by ring
      rw [this]
      exact Finset.sum_nonneg fun i _ => mul_nonneg (weight_pos hp i).le (sq_nonneg _)
    have h2 : m * (δ * (m * t - P)) ≤ m * δ := mul_le_mul_of_nonneg_left hfree.2 hm0
    have h3 : 0 ≤ m * δ ^ 2 := mul_nonneg hm0 (sq_nonneg _)
    have e4 : 2 * m * (P + δ) + m * (m * (Q + (2 * t * δ - ε)) - (P + δ) ^ 2) =
        (2 * m * P + m * (m * Q - P ^ 2)) + (2 * (m * δ) + 2 * (m * (δ * (m * t - P))) - m ^ 2 * ε - m * δ ^ 2) := by ring
    rw [e4]
    linarith

/-- The members of a group that agrees on an unelected candidate approve on average half as many members of the committee as they
deserve (minus one half). -/
theorem seqphragmen_average (hp : p.WF) (hne : p.voters ≠ []) {k : ℕ} {A : Finset ℕ}
    (h : RunWinner (PhragBest p) (phragUpd p) (fun _ => 0) k A) (G : Group p) {c : ℕ} (hc : c < p.numCand) (hcA : c ∉ A)
    (hG : ∀ i ∈ G, c ∈ appr p i) : AverageAtLeast p A G ((k * wt p G / total p - 1) / 2) := by
  obtain ⟨W, x, hrun, rfl, rfl⟩ := h
  have hcW : c ∉ W := fun h => hcA (List.mem_toFinset.2 h)
  have htot := total_pos hp hne
  have hm0 := wt_nonneg hp G
  by_cases hGe : G.Nonempty
  swap
  · rw [Finset.not_nonempty_iff_eq_empty] at hGe
    subst hGe
    simp [AverageAtLeast, wt]
  obtain ⟨i0, hi0⟩ := hGe
  have hGb : G ⊆ backers p c := fun i hi => mem_backers.2 (mem_appr.1 (hG i hi))
  have hbn : (backers p c).Nonempty := ⟨i0, hGb hi0⟩
  have hinv := degree_invariant hp G hc hG hrun hcW
  obtain ⟨j, -, hj⟩ := Finset.exists_max_image Finset.univ x ⟨i0, Finset.mem_univ _⟩
  have hmax : ∀ i, x i ≤ x j := fun i => hj i (Finset.mem_univ i)
  have hle := load_le_newLoad hp hrun c hc hcW hbn j
  set m := wt p G with hm
  set P := ∑ i ∈ G, (p.voters.get i).weight * x i with hP
  have hsumG : ∑ i ∈ G, (p.voters.get i).weight * (x j - x i) = m * x j - P := by
    rw [hm, hP]
    unfold wt
    rw [Finset.sum_mul, ← Finset.sum_sub_distrib]
    exact Finset.sum_congr rfl (fun i _ => by ring)
  have h1 : m * x j - P ≤ 1 := by
    rw [← hsumG, ← newLoad_mul hp x c hbn]
    refine (Finset.sum_le_sum_of_subset_of_nonneg hGb ?_).trans ?_
    · intro i _ _
      exact mul_nonneg (weight_pos hp i).le (sub_nonneg.2 (hmax i))
    · refine Finset.sum_le_sum (fun i _ => mul_le_mul_of_nonneg_left ?_ (weight_pos hp i).le)
      linarith
  have htl := C33_total_load p hp W x hrun
  rw [List.filter_eq_self.2 (by
    intro d hd
    exact decide_eq_true (elected_have_backers hrun c hc hcW hbn d hd))] at htl
  have hxj : (W.length : ℚ) / total p ≤ x j := by
    rw [div_le_iff₀ htot, ← htl]
    unfold total
    rw [Finset.mul_sum]
    exact Finset.sum_le_sum fun i _ => by
      have := mul_le_mul_of_nonneg_left (hmax i) (weight_pos hp i).le
      linarith
  have hcs : P ^ 2 ≤ m * ∑ i ∈ G, (p.voters.get i).weight * x i ^ 2 := by
    rw [hP, hm]
    unfold wt
    refine Finset.sum_sq_le_sum_mul_sum_of_sq_le_mul G (fun i _ => (weight_pos hp i).le)
      (fun i _ => mul_nonneg (weight_pos hp i).le (sq_nonneg _)) fun i _ => le_of_eq (by ring)
  have h2 : 0 ≤ m * (m * ∑ i ∈ G, (p.voters.get i).weight * x i ^ 2 - P ^ 2) := mul_nonneg hm0 (sub_nonneg.2 hcs)
  have h3 : m * (W.length / total p) ≤ m * x j := mul_le_mul_of_nonneg_left hxj hm0
  have h4 : m * (m * (W.length / total p) - 1) ≤ m * P := mul_le_mul_of_nonneg_left (by linarith) hm0
  unfold AverageAtLeast
  have e : m * ((W.length * m / total p - 1) / 2) = m * (m * (W.length / total p) - 1) / 2 := by ring
  rw [← hm, e]
  linarith

end

/-- **C126** The members of a group that agrees on an unelected candidate approve on average at least `(ℓ - 1) / 2` members of every
committee returned by `seqphragmen`, where `ℓ` is the number of seats the group deserves. -/
theorem C126_average (w : World) (hw : w.Exact) (p : Profile) (hp : p.WF) (a : Args) {alg : String}
    (hal : prologue w.env "seqphragmen" p a = .ok alg) (h1 : ApproversAtLeastOne p) (h2 : ExactAlg w.env alg) :
    ∃ cs, compute w "seqphragmen" p a.committeesize none a.kw = .ok cs ∧ cs ≠ [] ∧ ∀ W ∈ cs, ∀ (G : Group p) (c : ℕ),
      c < p.numCand → c ∉ W → (∀ i ∈ G, c ∈ appr p i) → AverageAtLeast p W.toFinset G ((a.k * wt p G / total p - 1) / 2) := by
  have hv := validCall_of_prologue hal
  have hE : Elects w p a.k alg "seqphragmen" _ := .seqphragmen h1 h2
  obtain ⟨cs, g1, g2, -⟩ := C31_valid w hw p hp a _ alg hal hE
  exact ⟨cs, g1, g2, fun W hW G c hc hcW hG => seqphragmen_average hp hv.voters (answers_mem (C31_compute w hw p hp a _ alg hal hE) g1 hW)
    G hc (fun h => hcW (List.mem_toFinset.1 h)) hG⟩

/-- **C126** The members of an `ℓ`-cohesive group approve on average at least `(ℓ - 1) / 2` members of the committee. -/
theorem C126_cohesive (w : World) (hw : w.Exact) (p : Profile) (hp : p.WF) (a : Args) {alg : String}
    (hal : prologue w.env "seqphragmen" p a = .ok alg) (h1 : ApproversAtLeastOne p) (h2 : ExactAlg w.env alg) :
    ∃ cs, compute w "seqphragmen" p a.committeesize none a.kw = .ok cs ∧ cs ≠ [] ∧ ∀ W ∈ cs, ∀ ℓ G T,
      Cohesive p (total p / a.k) ℓ G T → AverageAtLeast p W.toFinset G ((ℓ - 1) / 2) := by
  have hv := validCall_of_prologue hal
  have ht := total_pos hp hv.voters
  have hk : (0 : ℚ) < a.k := by exact_mod_cast hv.pos
  obtain ⟨cs, g1, g2, g3⟩ := C126_average w hw p hp a hal h1 h2
  refine ⟨cs, g1, g2, fun W hW ℓ G T hco => ?_⟩
  obtain ⟨c1, c2, c3, c4⟩ := hco
  have hlq : (0 : ℚ) < ℓ := by exact_mod_cast c1
  by_cases hTW : T ⊆ W.toFinset
  · refine (average_of_elected hp c4 hTW).mono hp ?_
    have h5 : (ℓ : ℚ) ≤ T.card := by exact_mod_cast c3
    have h6 : (1 : ℚ) ≤ ℓ := by exact_mod_cast c1
    linarith
  · obtain ⟨c, hcT, hcW⟩ := Finset.not_subset.1 hTW
    obtain ⟨i0, hi0⟩ := nonempty_of_wt (mul_pos hlq (div_pos ht hk)) c2
    refine (g3 W hW G c (appr_lt hp (c4 i0 hi0 hcT)) (fun h => hcW (List.mem_toFinset.2 h)) (fun i hi => c4 i hi hcT)).mono hp ?_
    have h5 : (ℓ : ℚ) ≤ a.k * wt p G / total p := by
      rw [le_div_iff₀ ht]
      have := mul_le_mul_of_nonneg_right c2 hk.le
      have e : (ℓ : ℚ) * (total p / a.k) * a.k = ℓ * total p := by field_simp
      linarith
    linarith

/-- Non-vacuity: the hypotheses of C126 hold for a concrete call and a concrete cohesive group. -/
example : greedyTrap.WF ∧
    prologue exampleEnv "seqphragmen" greedyTrap { committeesize := 2, resolute := false, algorithm := "standard-fractions" } =
      .ok "standard-fractions" ∧
    ApproversAtLeastOne greedyTrap ∧ Cohesive greedyTrap (total greedyTrap / 2) 1 {⟨0, by decide⟩, ⟨1, by decide⟩, ⟨4, by decide⟩} {1} :=
  ⟨⟨by decide, by decide, by decide, by decide⟩, by decide +kernel, approversAtLeastOne_of_weights (by decide +kernel), by decide,
    by decide +kernel, by decide, by decide⟩

end Abc
