import Verif.Spec.Guarantees
import Verif.Props.ComputeCheck
import Verif.Props.BranchAndBound
import Mathlib.Algebra.Order.BigOperators.Ring.Finset
import Mathlib.Analysis.SpecialFunctions.Exp

/-!
# C108 The score of the sequential Thiele methods; C109 Average satisfaction of groups
-/

namespace Abc

open Spec

section
variable {p : Profile} {f : ℕ → ℚ}

theorem score_mono (hf : ∀ i, 0 ≤ f i) (hp : p.WF) {A B : Finset ℕ} (h : A ⊆ B) : score f p A ≤ score f p B := by
  unfold score
  rw [voters_sum_fin p (fun v => v.weight * ∑ i ∈ Finset.range (util v A), f (i + 1)),
    voters_sum_fin p (fun v => v.weight * ∑ i ∈ Finset.range (util v B), f (i + 1))]
  refine Finset.sum_le_sum fun i _ => mul_le_mul_of_nonneg_left ?_ (weight_pos hp i).le
  exact Finset.sum_le_sum_of_subset_of_nonneg
    (Finset.range_subset_range.2 (Finset.card_le_card (Finset.inter_subset_inter_left h))) (fun j _ _ => hf _)

/-- The sequential Thiele methods: after `t` rounds at most the part `(1 - 1/k) ^ t` of the optimal score is missing. -/
theorem seqRun_approx (hf : ∀ i, 0 ≤ f i) (hanti : ∀ i, 1 ≤ i → f (i + 1) ≤ f i) (hp : p.WF) {k : ℕ} (hk : 1 ≤ k)
    {B : Finset ℕ} (hB : IsCommittee p k B) {W : List ℕ} (h : SeqRun f p W) :
    score f p B - score f p W.toFinset ≤ (1 - 1 / (k : ℚ)) ^ W.length * score f p B := by
  classical
  have hkq : (0 : ℚ) < k := by exact_mod_cast hk
  induction h with
  | nil =>
    have := score_nonneg f hf p hp ([] : List ℕ).toFinset
    rw [List.length_nil, pow_zero, one_mul]
    linarith
  | @snoc W c _ hc hcW hmax ih =>
    have e : (W ++ [c]).toFinset = insert c W.toFinset := by ext x; simp
    have h1 : score f p B ≤ score f p W.toFinset + k * gain f p W.toFinset c := by
      calc score f p B ≤ score f p (W.toFinset ∪ (B \ W.toFinset).toList.toFinset) :=
            score_mono hf hp (fun x hx => by
              by_cases hxW : x ∈ W <;> simp [hx, hxW])
        _ ≤ score f p W.toFinset + ((B \ W.toFinset).toList.map (fun d => gain f p W.toFinset d)).sum :=
            score_union_le f hanti p hp _ _ (Finset.nodup_toList _) (fun d hd => (Finset.mem_sdiff.1 (Finset.mem_toList.1 hd)).2)
        _ ≤ score f p W.toFinset + k * gain f p W.toFinset c := by
            rw [Finset.sum_map_toList]
            have h2 : ∑ d ∈ B \ W.toFinset, gain f p W.toFinset d ≤ (B \ W.toFinset).card • gain f p W.toFinset c :=
              Finset.sum_le_card_nsmul _ _ _ (fun d hd => by
                rw [Finset.mem_sdiff, List.mem_toFinset] at hd
                exact hmax d (Finset.mem_range.1 (hB.1 hd.1)) hd.2)
            have h3 : ((B \ W.toFinset).card : ℚ) ≤ k := by
              exact_mod_cast (Finset.card_le_card Finset.sdiff_subset).trans hB.2.le
            have h4 := mul_le_mul_of_nonneg_right h3 (gain_nonneg f hf p hp W.toFinset c)
            rw [nsmul_eq_mul] at h2
            linarith
    have h2 : gain f p W.toFinset c = score f p (W ++ [c]).toFinset - score f p W.toFinset := by rw [e]; rfl
    have h3 : 0 ≤ 1 - 1 / (k : ℚ) := by
      rw [sub_nonneg, div_le_one hkq]
      exact_mod_cast hk
    have h4 : (score f p B - score f p W.toFinset) / k ≤ gain f p W.toFinset c := by
      rw [div_le_iff₀ hkq, mul_comm]
      linarith
    rw [List.length_append, List.length_singleton, pow_succ]
    have h5 := mul_le_mul_of_nonneg_left ih h3
    have h6 : score f p B - score f p (W ++ [c]).toFinset ≤ (1 - 1 / (k : ℚ)) * (score f p B - score f p W.toFinset) := by
      have e1 : (1 - 1 / (k : ℚ)) * (score f p B - score f p W.toFinset) =
          (score f p B - score f p W.toFinset) - (score f p B - score f p W.toFinset) / k := by ring
      rw [e1]
      linarith
    linarith

end

/-- **C108** Every committee returned by `seqpav`, `seqslav`, `seqcc`, `seqav` or `seqgeom<base>` (base at least 1) has at least
`1 - (1 - 1/k)^k` of the score of every other committee of the same size. -/
theorem C108_seq_approximation (w : World) (hw : w.Exact) (p : Profile) (hp : p.WF) (a : Args) {sid alg : String} {s : ScoreId}
    (hs : w.env.scoreId sid = .ok s) (hprop : s.Proper) (hal : prologue w.env ("seq" ++ sid) p a = .ok alg) :
    ∃ cs, compute w ("seq" ++ sid) p a.committeesize none a.kw = .ok cs ∧ cs ≠ [] ∧ ∀ W ∈ cs, ∀ B, IsCommittee p a.k B →
      (1 - (1 - 1 / (a.k : ℚ)) ^ a.k) * score (marginalFct s) p B ≤ score (marginalFct s) p W.toFinset := by
  have hv := validCall_of_prologue hal
  obtain ⟨h0, hanti⟩ := C16_nonneg_nonincreasing s hprop
  have hE : Elects w p a.k alg ("seq" ++ sid) _ := .seqThiele hs h0
  obtain ⟨cs, h1, h2, -⟩ := C31_valid w hw p hp a _ alg hal hE
  refine ⟨cs, h1, h2, fun W hW B hB => ?_⟩
  obtain ⟨V, g1, g2, g3⟩ := answers_mem (C31_compute w hw p hp a _ alg hal hE) h1 hW
  have := seqRun_approx h0 hanti hp hv.pos hB g1
  rw [g2, g3] at this
  linarith

/-- **C108** In particular at least `1 - 1/e` (more than 63 percent) of the optimal score. -/
theorem C108_seq_approximation_exp (w : World) (hw : w.Exact) (p : Profile) (hp : p.WF) (a : Args) {sid alg : String} {s : ScoreId}
    (hs : w.env.scoreId sid = .ok s) (hprop : s.Proper) (hal : prologue w.env ("seq" ++ sid) p a = .ok alg) :
    ∃ cs, compute w ("seq" ++ sid) p a.committeesize none a.kw = .ok cs ∧ cs ≠ [] ∧ ∀ W ∈ cs, ∀ B, IsCommittee p a.k B →
      (1 - Real.exp (-1)) * (score (marginalFct s) p B : ℝ) ≤ (score (marginalFct s) p W.toFinset : ℝ) := by
  have hv := validCall_of_prologue hal
  obtain ⟨cs, h1, h2, h3⟩ := C108_seq_approximation w hw p hp a hs hprop hal
  refine ⟨cs, h1, h2, fun W hW B hB => ?_⟩
  have h4 := h3 W hW B hB
  have h5 : ((1 - (1 - 1 / (a.k : ℝ)) ^ a.k) * (score (marginalFct s) p B : ℝ)) ≤ (score (marginalFct s) p W.toFinset : ℝ) := by
    have h5 := (Rat.cast_le (K := ℝ)).2 h4
    push_cast at h5
    exact h5
  have h6 : (1 - 1 / (a.k : ℝ)) ^ a.k ≤ Real.exp (-1) :=
    Real.one_sub_div_pow_le_exp_neg (by exact_mod_cast hv.pos)
  have h7 : (0 : ℝ) ≤ (score (marginalFct s) p B : ℝ) := by
    exact_mod_cast score_nonneg _ (C16_nonneg_nonincreasing s hprop).1 p hp B
  nlinarith

/-! ## C109 -/

section
variable {p : Profile}

/-- No other candidate would add more than an equal share of the voters to the score of PAV. -/
theorem pav_gain (hp : p.WF) {k : ℕ} {W : Finset ℕ} (h : ThieleOpt (marginalFct .pav) p k W) {c : ℕ} (hc : c < p.numCand)
    (hcW : c ∉ W) : ((k : ℚ) + 1) * gain (marginalFct .pav) p W c ≤ total p := by
  have hf := marginalFct_nonneg .pav (by simp)
  set f := marginalFct .pav with hfd
  set V := insert c W with hV
  have hcard : V.card = k + 1 := by rw [hV, Finset.card_insert_of_notMem hcW, h.1.2]
  have hsum : ∑ x ∈ V, loss f p V x ≤ total p := by
    rw [sum_loss]
    refine Finset.sum_le_sum (fun i _ => ?_)
    have : (sat p V i : ℚ) * f (sat p V i) ≤ 1 := by
      rw [hfd]
      simp only [marginalFct]
      split
      · simp
      · rename_i h0
        have : (sat p V i : ℚ) ≠ 0 := by exact_mod_cast h0
        rw [mul_one_div, div_self this]
    have := mul_le_mul_of_nonneg_left this (weight_pos hp i).le
    linarith
  have hle : ∀ x ∈ V, gain f p W c ≤ loss f p V x := by
    intro x hx
    have hcom : IsCommittee p k (V.erase x) := by
      refine ⟨?_, by rw [Finset.card_erase_of_mem hx, hcard]; omega⟩
      intro y hy
      rcases Finset.mem_insert.1 (Finset.mem_of_mem_erase hy) with rfl | hy
      · exact Finset.mem_range.2 hc
      · exact h.1.1 hy
    have := h.2 _ hcom
    have e1 : loss f p V x = score f p V - score f p (V.erase x) := rfl
    have e2 : gain f p W c = score f p V - score f p W := rfl
    linarith
  have := Finset.card_nsmul_le_sum V (fun x => loss f p V x) _ hle
  rw [hcard, nsmul_eq_mul] at this
  push_cast at this
  linarith

theorem pav_average (hp : p.WF) (hv : p.voters ≠ []) {k : ℕ} {W : Finset ℕ} (h : ThieleOpt (marginalFct .pav) p k W)
    (G : Group p) {c : ℕ} (hc : c < p.numCand) (hcW : c ∉ W) (hG : ∀ i ∈ G, c ∈ appr p i) :
    AverageAtLeast p W G ((k + 1) * wt p G / total p - 1) := by
  have hf := marginalFct_nonneg .pav (by simp)
  have hgain := pav_gain hp h hc hcW
  set f := marginalFct .pav with hfd
  have ht := total_pos hp hv
  have hge : ∑ i ∈ G, (p.voters.get i).weight / (sat p W i + 1) ≤ gain f p W c := by
    unfold gain
    rw [score_insert f p W c hcW, voters_sum_fin]
    calc ∑ i ∈ G, (p.voters.get i).weight / (sat p W i + 1)
        ≤ ∑ i ∈ G, (if c ∈ (p.voters.get i).A then (p.voters.get i).weight * f (util (p.voters.get i) W + 1) else 0) := by
          refine Finset.sum_le_sum (fun i hi => ?_)
          rw [if_pos (show c ∈ (p.voters.get i).A from hG i hi), util_sat, hfd]
          simp only [marginalFct]
          rw [if_neg (by omega)]
          push_cast
          rw [mul_one_div]
      _ ≤ _ := by
          refine Finset.sum_le_sum_of_subset_of_nonneg (Finset.subset_univ G) (fun i _ _ => ?_)
          split
          · exact mul_nonneg (weight_pos hp i).le (hf _)
          · exact le_rfl
  have hcs : (wt p G) ^ 2 ≤ (∑ i ∈ G, (p.voters.get i).weight * (sat p W i + 1)) * ∑ i ∈ G, (p.voters.get i).weight / (sat p W i + 1) := by
    unfold wt
    refine Finset.sum_sq_le_sum_mul_sum_of_sq_le_mul G (fun i _ => ?_) (fun i _ => ?_) (fun i _ => ?_)
    · exact mul_nonneg (weight_pos hp i).le (by positivity)
    · exact div_nonneg (weight_pos hp i).le (by positivity)
    · have : (sat p W i : ℚ) + 1 ≠ 0 := by positivity
      refine le_of_eq ?_
      field_simp
  have hexp : ∑ i ∈ G, (p.voters.get i).weight * ((sat p W i : ℚ) + 1) =
      (∑ i ∈ G, (p.voters.get i).weight * (sat p W i : ℚ)) + wt p G := by
    unfold wt
    rw [← Finset.sum_add_distrib]
    exact Finset.sum_congr rfl fun i _ => by ring
  have hnn : 0 ≤ ∑ i ∈ G, (p.voters.get i).weight * ((sat p W i : ℚ) + 1) :=
    Finset.sum_nonneg fun i _ => mul_nonneg (weight_pos hp i).le (by positivity)
  have hkq : (0 : ℚ) < (k : ℚ) + 1 := by positivity
  have h1 : ((k : ℚ) + 1) * (wt p G) ^ 2 ≤ (∑ i ∈ G, (p.voters.get i).weight * ((sat p W i : ℚ) + 1)) * total p := by
    calc ((k : ℚ) + 1) * (wt p G) ^ 2 ≤ ((k : ℚ) + 1) * ((∑ i ∈ G, (p.voters.get i).weight * ((sat p W i : ℚ) + 1)) * gain f p W c) :=
          mul_le_mul_of_nonneg_left (hcs.trans (mul_le_mul_of_nonneg_left hge hnn)) hkq.le
      _ = (∑ i ∈ G, (p.voters.get i).weight * ((sat p W i : ℚ) + 1)) * (((k : ℚ) + 1) * gain f p W c) := by ring
      _ ≤ _ := mul_le_mul_of_nonneg_left hgain hnn
  unfold AverageAtLeast
  rw [hexp] at h1
  have h2 : ((k : ℚ) + 1) * (wt p G) ^ 2 / total p ≤ (∑ i ∈ G, (p.voters.get i).weight * (sat p W i : ℚ)) + wt p G := by
    rw [div_le_iff₀ ht]
    exact h1
  have h3 : wt p G * ((k + 1) * wt p G / total p - 1) = ((k : ℚ) + 1) * (wt p G) ^ 2 / total p - wt p G := by ring
  rw [h3]
  linarith

/-- EJR+ bounds the average satisfaction of a group. -/
theorem Spec.EJRplus.average (hp : p.WF) {W : Finset ℕ} {q : ℚ} (h : EJRplus p W q) {ℓ : ℕ} (hl : 1 ≤ ℓ) (G : Group p) {c : ℕ}
    (hG : (ℓ : ℚ) * q ≤ wt p G) (hcW : c ∉ W) (hc : ∀ i ∈ G, c ∈ appr p i) : AverageAtLeast p W G ((ℓ - 1) / 2) := by
  classical
  have hlq : (0 : ℚ) < ℓ := by exact_mod_cast hl
  have hj : ∀ j, 1 ≤ j → wt p G - j * q ≤ ∑ i ∈ G, (p.voters.get i).weight * (if j ≤ sat p W i then 1 else 0) := by
    intro j hj1
    have h1 : wt p (G.filter (fun i => sat p W i < j)) ≤ j * q := by
      by_contra hcon
      push Not at hcon
      obtain ⟨i, hi, hsat⟩ := h j (G.filter (fun i => sat p W i < j)) c hj1 hcon.le hcW (fun i hi => hc i (Finset.mem_filter.1 hi).1)
      have := (Finset.mem_filter.1 hi).2
      omega
    have h2 : wt p G = wt p (G.filter (fun i => sat p W i < j)) +
        ∑ i ∈ G, (p.voters.get i).weight * (if j ≤ sat p W i then 1 else 0) := by
      unfold wt
      rw [Finset.sum_filter, ← Finset.sum_add_distrib]
      refine Finset.sum_congr rfl fun i _ => ?_
      by_cases hlt : sat p W i < j
      · rw [if_pos hlt, if_neg (by omega)]; ring
      · rw [if_neg hlt, if_pos (by omega)]; ring
    linarith
  have hsum : ∑ j ∈ Finset.range ℓ, (wt p G - ((j + 1 : ℕ) : ℚ) * q) ≤ ∑ i ∈ G, (p.voters.get i).weight * (sat p W i : ℚ) := by
    refine (Finset.sum_le_sum fun j _ => hj (j + 1) (by omega)).trans ?_
    rw [Finset.sum_comm]
    refine Finset.sum_le_sum fun i _ => ?_
    rw [← Finset.mul_sum]
    refine mul_le_mul_of_nonneg_left ?_ (weight_pos hp i).le
    rw [Finset.sum_boole]
    have : (Finset.range ℓ).filter (fun j => j + 1 ≤ sat p W i) ⊆ Finset.range (sat p W i) := fun j hj => by
      rw [Finset.mem_filter] at hj
      exact Finset.mem_range.2 hj.2
    have := Finset.card_le_card this
    rw [Finset.card_range] at this
    exact_mod_cast this
  have hgauss : ∀ n : ℕ, ∑ j ∈ Finset.range n, (wt p G - ((j + 1 : ℕ) : ℚ) * q) = n * wt p G - n * (n + 1) / 2 * q := by
    intro n
    induction n with
    | zero => simp
    | succ n ih => rw [Finset.sum_range_succ, ih]; push_cast; ring
  rw [hgauss] at hsum
  unfold AverageAtLeast
  have : wt p G * (((ℓ : ℚ) - 1) / 2) ≤ ℓ * wt p G - ℓ * (ℓ + 1) / 2 * q := by nlinarith
  linarith

/-- Members of a group whose joint candidates are all elected have at least as many representatives. -/
theorem average_of_elected (hp : p.WF) {W : Finset ℕ} {G : Group p} {T : Finset ℕ} (hT : ∀ i ∈ G, T ⊆ appr p i) (hTW : T ⊆ W) :
    AverageAtLeast p W G T.card := by
  unfold AverageAtLeast wt
  rw [Finset.sum_mul]
  refine Finset.sum_le_sum fun i hi => mul_le_mul_of_nonneg_left ?_ (weight_pos hp i).le
  exact_mod_cast Finset.card_le_card (Finset.subset_inter (hT i hi) hTW)

theorem Spec.AverageAtLeast.mono (hp : p.WF) {W : Finset ℕ} {G : Group p} {x y : ℚ} (h : AverageAtLeast p W G x) (hy : y ≤ x) :
    AverageAtLeast p W G y :=
  (mul_le_mul_of_nonneg_left hy (wt_nonneg' hp G)).trans h

end

/-- **C109** PAV: the members of a group that agree on a candidate who is not elected approve on average at least
`(k + 1) · (share of the group) - 1` members of the committee. -/
theorem C109_pav_average (w : World) (hw : w.Exact) (p : Profile) (hp : p.WF) (a : Args) {alg : String}
    (hal : prologue w.env "pav" p a = .ok alg) (hint : alg = "ortools-cp" → IntegerWeights p) :
    ∃ cs, compute w "pav" p a.committeesize none a.kw = .ok cs ∧ cs ≠ [] ∧ ∀ W ∈ cs, ∀ (G : Group p) (c : ℕ), c < p.numCand → c ∉ W →
      (∀ i ∈ G, c ∈ appr p i) → AverageAtLeast p W.toFinset G ((a.k + 1) * wt p G / total p - 1) := by
  have hv := validCall_of_prologue hal
  have hE : Elects w p a.k alg "pav" _ := .thiele (s := .pav) rfl (Or.inl rfl) hint
  obtain ⟨cs, h1, h2, -⟩ := C31_valid w hw p hp a _ alg hal hE
  refine ⟨cs, h1, h2, fun W hW G c hc hcW hG => ?_⟩
  exact pav_average hp hv.voters (answers_mem (C31_compute w hw p hp a _ alg hal hE) h1 hW) G hc
    (fun h => hcW (List.mem_toFinset.1 h)) hG

/-- **C109** PAV: the members of an `ℓ`-cohesive group approve on average more than `ℓ - 1` members of the committee. -/
theorem C109_pav_cohesive (w : World) (hw : w.Exact) (p : Profile) (hp : p.WF) (a : Args) {alg : String}
    (hal : prologue w.env "pav" p a = .ok alg) (hint : alg = "ortools-cp" → IntegerWeights p) :
    ∃ cs, compute w "pav" p a.committeesize none a.kw = .ok cs ∧ cs ≠ [] ∧ ∀ W ∈ cs, ∀ ℓ G T,
      Cohesive p (total p / a.k) ℓ G T → AverageAtLeast p W.toFinset G (ℓ - 1 + min 1 ((ℓ : ℚ) / a.k)) := by
  have hv := validCall_of_prologue hal
  have ht := total_pos hp hv.voters
  have hk : (0 : ℚ) < a.k := by exact_mod_cast hv.pos
  obtain ⟨cs, h1, h2, h3⟩ := C109_pav_average w hw p hp a hal hint
  refine ⟨cs, h1, h2, fun W hW ℓ G T hco => ?_⟩
  obtain ⟨c1, c2, c3, c4⟩ := hco
  have hlq : (0 : ℚ) < ℓ := by exact_mod_cast c1
  by_cases hTW : T ⊆ W.toFinset
  · refine (average_of_elected hp c4 hTW).mono hp ?_
    have : (ℓ : ℚ) ≤ T.card := by exact_mod_cast c3
    have := min_le_left (1 : ℚ) ((ℓ : ℚ) / a.k)
    linarith
  · obtain ⟨c, hcT, hcW⟩ := Finset.not_subset.1 hTW
    obtain ⟨i0, hi0⟩ := nonempty_of_wt (mul_pos hlq (div_pos ht hk)) c2
    refine (h3 W hW G c (appr_lt hp (c4 i0 hi0 hcT)) (fun h => hcW (List.mem_toFinset.2 h)) (fun i hi => c4 i hi hcT)).mono hp ?_
    have h5 : (ℓ : ℚ) / a.k ≤ wt p G / total p := by
      rw [div_le_div_iff₀ hk ht]
      have := mul_le_mul_of_nonneg_right c2 hk.le
      have e : (ℓ : ℚ) * (total p / a.k) * a.k = ℓ * total p := by field_simp
      linarith
    have h6 : ((a.k : ℚ) + 1) * wt p G / total p = (a.k + 1) * (wt p G / total p) := by ring
    have h7 : ((a.k : ℚ) + 1) * ((ℓ : ℚ) / a.k) ≤ (a.k + 1) * (wt p G / total p) := mul_le_mul_of_nonneg_left h5 (by linarith)
    have h8 : ((a.k : ℚ) + 1) * ((ℓ : ℚ) / a.k) = ℓ + ℓ / a.k := by field_simp
    have := min_le_right (1 : ℚ) ((ℓ : ℚ) / a.k)
    rw [h6]
    linarith

/-- **C109** PAV and Equal Shares (without completion, completed by seq-Phragmén or by AV): the members of an `ℓ`-cohesive group approve
on average at least `(ℓ - 1) / 2` members of the committee. -/
theorem C109_average (w : World) (hw : w.Exact) (p : Profile) (hp : p.WF) (a : Args) {ruleId alg : String}
    (hal : prologue w.env ruleId p a = .ok alg) (h : ExtendedRule w p a.k alg ruleId) :
    ∃ cs, compute w ruleId p a.committeesize none a.kw = .ok cs ∧ cs ≠ [] ∧ ∀ W ∈ cs, ∀ ℓ G T,
      Cohesive p (total p / a.k) ℓ G T → AverageAtLeast p W.toFinset G ((ℓ - 1) / 2) := by
  have hv := validCall_of_prologue hal
  have hT : ∃ T, Elects w p a.k alg ruleId T ∧ ∀ A, T A → EJRplus p A (total p / a.k) := by
    cases h with
    | pav h => exact ⟨_, .thiele (s := .pav) rfl (Or.inl rfl) h, fun A hA => pav_EJRplus p hp hv.voters a.k hv.pos A hA⟩
    | equalShares h h1 h2 => exact ⟨_, .equalShares h h1 h2, fun A hA => mesWinner_EJRplus hp hv.voters a.k hv.pos _ A hA⟩
    | equalSharesAv h => exact ⟨_, .equalSharesAv h, fun A hA => mesWinner_EJRplus hp hv.voters a.k hv.pos _ A hA⟩
    | equalSharesNone h h1 => exact ⟨_, .equalSharesNone h h1, fun A hA => mesWinner_EJRplus hp hv.voters a.k hv.pos _ A hA⟩
  obtain ⟨T, hT, hE⟩ := hT
  obtain ⟨cs, h1, h2, -⟩ := C31_valid w hw p hp a ruleId alg hal hT
  refine ⟨cs, h1, h2, fun W hW ℓ G T' hco => ?_⟩
  obtain ⟨c1, c2, c3, c4⟩ := hco
  by_cases hTW : T' ⊆ W.toFinset
  · refine (average_of_elected hp c4 hTW).mono hp ?_
    have : (ℓ : ℚ) ≤ T'.card := by exact_mod_cast c3
    have : (1 : ℚ) ≤ ℓ := by exact_mod_cast c1
    linarith
  · obtain ⟨c, hcT, hcW⟩ := Finset.not_subset.1 hTW
    exact (hE _ (answers_mem (C31_compute w hw p hp a ruleId alg hal hT) h1 hW)).average hp c1 G c2 hcW (fun i hi => c4 i hi hcT)

/-! ## Examples -/

/-- Candidate 0 is approved by four voters, candidates 1 and 2 by three each, who together are all voters. -/
def greedyTrap : Profile := ⟨3, [⟨[0, 1], 1⟩, ⟨[0, 1], 1⟩, ⟨[0, 2], 1⟩, ⟨[0, 2], 1⟩, ⟨[1], 1⟩, ⟨[2], 1⟩], []⟩

/-- Non-vacuity: the hypotheses of C108 and C109 hold for concrete calls. -/
example : greedyTrap.WF ∧ exampleEnv.scoreId "cc" = .ok .cc ∧
    prologue exampleEnv ("seq" ++ "cc") greedyTrap { committeesize := 2, resolute := false } = .ok "standard" ∧
    prologue exampleEnv "pav" greedyTrap { committeesize := 2, resolute := false } = .ok "branch-and-bound" ∧
    Cohesive greedyTrap (total greedyTrap / 2) 1 {⟨0, by decide⟩, ⟨1, by decide⟩, ⟨4, by decide⟩} {1} :=
  ⟨⟨by decide, by decide, by decide, by decide⟩, by decide +kernel, by decide +kernel, by decide +kernel, by decide, by decide +kernel,
    by decide, by decide⟩

/-- **C108** Contrast: seq-CC does not reach the optimal score itself; it elects committees representing five of the six voters. -/
theorem C108_contrast : seqThieleIrresolute (marginalFct .cc) greedyTrap 2 none = .ok [[0, 1], [0, 2]] ∧
    score (marginalFct .cc) greedyTrap {0, 1} = 5 ∧ score (marginalFct .cc) greedyTrap {1, 2} = 6 := by
  decide +kernel

end Abc
