import Verif.Props.PJRplus
import Verif.Spec.Welfare
import Verif.Props.SingleSeat
import Mathlib.Analysis.Real.Sqrt

/-!
# C127: how many voters are represented, and how many approvals the members have
-/

namespace Abc

open Spec

section
variable {p : Profile} {W B : Finset ℕ}

theorem representedBy_eq (p : Profile) (W : Finset ℕ) :
    representedBy p W = ∑ i, (p.voters.get i).weight * (if 0 < sat p W i then 1 else 0) := by
  unfold representedBy wt
  rw [Finset.sum_filter]
  exact Finset.sum_congr rfl fun i _ => by split <;> simp

theorem representedBy_nonneg (hp : p.WF) (W : Finset ℕ) : 0 ≤ representedBy p W := wt_nonneg hp _

theorem representedBy_le_welfare (hp : p.WF) (W : Finset ℕ) : representedBy p W ≤ welfare p W := by
  rw [representedBy_eq]
  refine Finset.sum_le_sum fun i _ => mul_le_mul_of_nonneg_left ?_ (weight_pos hp i).le
  split
  · rename_i h
    exact_mod_cast h
  · positivity

theorem welfare_le_represented (hp : p.WF) (W : Finset ℕ) : welfare p W ≤ W.card * representedBy p W := by
  rw [representedBy_eq, Finset.mul_sum]
  refine Finset.sum_le_sum fun i _ => ?_
  rw [mul_left_comm]
  refine mul_le_mul_of_nonneg_left ?_ (weight_pos hp i).le
  split
  · rw [mul_one]
    exact_mod_cast Finset.card_le_card Finset.inter_subset_right
  · rename_i h
    have : sat p W i = 0 := by omega
    simp [this]

/-- The welfare is the sum of the approvals of the members. -/
theorem welfare_eq_sum (p : Profile) (W : Finset ℕ) : welfare p W = ∑ c ∈ W, wt p (backers p c) := by
  unfold welfare wt backers
  simp only [Finset.sum_filter]
  rw [Finset.sum_comm]
  refine Finset.sum_congr rfl fun i _ => ?_
  rw [← Finset.sum_filter, Finset.sum_const, nsmul_eq_mul, mul_comm]
  congr 2
  unfold sat
  congr 1
  ext c
  rw [Finset.mem_inter, Finset.mem_filter]
  exact and_comm

/-- The supporters of `c` who approve nobody in `W`. -/
def newlyRepresented (p : Profile) (W : Finset ℕ) (c : ℕ) : Group p := (backers p c).filter fun i => sat p W i = 0

/-- Who is represented by `B`, but not by `W`, supports a member of `B` who is not in `W`. -/
theorem representedBy_le_add (hp : p.WF) (W B : Finset ℕ) :
    representedBy p B ≤ representedBy p W + ∑ c ∈ B \ W, wt p (newlyRepresented p W c) := by
  have h1 : ∑ c ∈ B \ W, wt p (newlyRepresented p W c) =
      ∑ i, (p.voters.get i).weight * ∑ c ∈ B \ W, (if i ∈ newlyRepresented p W c then 1 else 0) := by
    simp only [Finset.mul_sum]
    rw [Finset.sum_comm]
    refine Finset.sum_congr rfl fun c _ => ?_
    unfold wt
    simp only [mul_ite, mul_one, mul_zero]
    rw [← Finset.sum_filter]
    refine Finset.sum_congr ?_ fun _ _ => rfl
    ext i
    simp
  rw [h1, representedBy_eq, representedBy_eq, ← Finset.sum_add_distrib]
  refine Finset.sum_le_sum fun i _ => ?_
  rw [← mul_add]
  refine mul_le_mul_of_nonneg_left ?_ (weight_pos hp i).le
  have h0 : (0 : ℚ) ≤ ∑ c ∈ B \ W, (if i ∈ newlyRepresented p W c then (1 : ℚ) else 0) :=
    Finset.sum_nonneg fun c _ => by split <;> norm_num
  by_cases hB : 0 < sat p B i
  · rw [if_pos hB]
    by_cases hW : 0 < sat p W i
    · rw [if_pos hW]
      linarith
    · rw [if_neg hW, zero_add]
      have hW0 : sat p W i = 0 := by omega
      obtain ⟨c, hc⟩ := Finset.card_pos.1 hB
      obtain ⟨hca, hcB⟩ := Finset.mem_inter.1 hc
      have hcW : c ∉ W := fun h => by
        have : 0 < sat p W i := Finset.card_pos.2 ⟨c, Finset.mem_inter.2 ⟨hca, h⟩⟩
        omega
      have hin : i ∈ newlyRepresented p W c :=
        Finset.mem_filter.2 ⟨Finset.mem_filter.2 ⟨Finset.mem_univ _, hca⟩, hW0⟩
      have := Finset.single_le_sum (f := fun c => if i ∈ newlyRepresented p W c then (1 : ℚ) else 0)
        (fun c _ => by split <;> norm_num) (Finset.mem_sdiff.2 ⟨hcB, hcW⟩)
      rw [if_pos hin] at this
      exact this
  · rw [if_neg hB]
    split <;> linarith

/-- Priceable committees represent at least half as many voters as every other committee of at most the same size. -/
theorem Spec.Priceable.represents (hp : p.WF) (hW : W ⊆ Finset.range p.numCand) (hne : W.Nonempty) (h : Priceable p W)
    (hB : B ⊆ Finset.range p.numCand) (hBW : B.card ≤ W.card) : representedBy p B ≤ 2 * representedBy p W := by
  obtain ⟨b, pay, hps, hc⟩ := h
  have hk : (0 : ℚ) < W.card := by exact_mod_cast hne.card_pos
  have hcard := PriceSystem.card_le hW hps
  have htot : 0 ≤ total p := Finset.sum_nonneg fun i _ => (weight_pos hp i).le
  have hb : 0 < b := by
    by_contra hb
    have := mul_nonpos_of_nonneg_of_nonpos htot (not_lt.1 hb)
    linarith
  -- the represented voters pay for everything
  have hpaid : (W.card : ℚ) ≤ representedBy p W * b := by
    rw [← hps.sum_payments, representedBy_eq, Finset.sum_mul]
    refine Finset.sum_le_sum fun i _ => ?_
    split
    · have := leftAfter_nonneg hW hps i
      unfold leftAfter at this
      linarith
    · rename_i h0
      rw [mul_zero, zero_mul]
      refine (Finset.sum_eq_zero fun c hcW => ?_).le
      by_contra hne
      exact h0 (Finset.card_pos.2 ⟨c, Finset.mem_inter.2 ⟨hps.approved i c hne, hcW⟩⟩)
  -- the others cannot pay for anybody
  have hnew : ∀ c ∈ B \ W, wt p (newlyRepresented p W c) * b ≤ 1 := by
    intro c hcB
    obtain ⟨hcB, hcW⟩ := Finset.mem_sdiff.1 hcB
    refine le_trans ?_ (hc c (Finset.mem_range.1 (hB hcB)) hcW)
    unfold wt
    rw [Finset.sum_mul]
    have hsub : newlyRepresented p W c ⊆ Finset.univ.filter fun i => c ∈ appr p i := Finset.filter_subset _ _
    refine le_trans (le_of_eq ?_) (Finset.sum_le_sum_of_subset_of_nonneg hsub fun i _ _ => leftAfter_nonneg hW hps i)
    refine Finset.sum_congr rfl fun i hi => ?_
    have h0 : sat p W i = 0 := (Finset.mem_filter.1 hi).2
    unfold leftAfter
    rw [Finset.sum_eq_zero fun d hd => ?_, sub_zero]
    by_contra hne
    have : 0 < sat p W i := Finset.card_pos.2 ⟨d, Finset.mem_inter.2 ⟨hps.approved i d hne, hd⟩⟩
    omega
  have h1 := representedBy_le_add hp W B
  have h2 : (∑ c ∈ B \ W, wt p (newlyRepresented p W c)) * b ≤ W.card := by
    rw [Finset.sum_mul]
    refine (Finset.sum_le_card_nsmul _ _ _ hnew).trans ?_
    rw [nsmul_eq_mul, mul_one]
    exact_mod_cast (Finset.card_le_card Finset.sdiff_subset).trans hBW
  have h3 : ∑ c ∈ B \ W, wt p (newlyRepresented p W c) ≤ representedBy p W := le_of_mul_le_mul_right (h2.trans hpaid) hb
  linarith

theorem Spec.PriceableOrFull.represents (hp : p.WF) (hW : W ⊆ Finset.range p.numCand) (hne : W.Nonempty) (h : PriceableOrFull false p W)
    (hB : B ⊆ Finset.range p.numCand) (hBW : B.card ≤ W.card) : representedBy p B ≤ 2 * representedBy p W := by
  unfold PriceableOrFull at h
  split at h
  · have h1 := representedBy_nonneg hp W
    have h2 : representedBy p B ≤ representedBy p W := by
      refine Finset.sum_le_sum_of_subset_of_nonneg (fun i hi => ?_) fun i _ _ => (weight_pos hp i).le
      simp only [Finset.mem_filter, Finset.mem_univ, true_and] at hi ⊢
      refine lt_of_lt_of_le hi (Finset.card_le_card fun c hc => ?_)
      have hca := (Finset.mem_inter.1 hc).1
      exact Finset.mem_inter.2 ⟨hca, h (Finset.mem_biUnion.2 ⟨i, Finset.mem_univ _, hca⟩)⟩
    linarith
  · exact Spec.Priceable.represents hp hW hne (by simpa using h) hB hBW

/-! ## PAV -/

theorem newlyRepresented_le_gain (hp : p.WF) (W : Finset ℕ) {c : ℕ} (hcW : c ∉ W) : wt p (newlyRepresented p W c) ≤ gain (marginalFct .pav) p W c := by
  have := gain_ge_group (marginalFct .pav) (marginalFct_nonneg .pav (by simp)) p hp W c hcW (newlyRepresented p W c)
    (fun i hi => (Finset.mem_filter.1 (Finset.mem_filter.1 hi).1).2) 1 (fun i hi => by
      rw [(Finset.mem_filter.1 hi).2]
      simp [marginalFct])
  linarith

/-- No other candidate would add more than `1/k` of the represented voters to the score of PAV. -/
theorem pav_gain_represented (hp : p.WF) {k : ℕ} (h : ThieleOpt (marginalFct .pav) p k W) {c : ℕ} (hc : c < p.numCand)
    (hcW : c ∉ W) : (k : ℚ) * gain (marginalFct .pav) p W c ≤ representedBy p W := by
  have hnew := newlyRepresented_le_gain hp W hcW
  set f := marginalFct .pav with hfd
  set V := insert c W with hV
  have hcard : V.card = k + 1 := by rw [hV, Finset.card_insert_of_notMem hcW, h.1.2]
  have hsum : ∑ x ∈ V, loss f p V x ≤ representedBy p V := by
    rw [sum_loss, representedBy_eq]
    refine Finset.sum_le_sum (fun i _ => mul_le_mul_of_nonneg_left ?_ (weight_pos hp i).le)
    rw [hfd]
    simp only [marginalFct]
    by_cases h0 : sat p V i = 0
    · simp [h0]
    · rw [if_neg h0, if_pos (by omega)]
      have : (sat p V i : ℚ) ≠ 0 := by exact_mod_cast h0
      rw [mul_one_div, div_self this]
  have hle : ∀ x ∈ V, gain f p W c ≤ loss f p V x := by
    intro x hx
    have hcom : IsCommittee p k (V.erase x) := by
      refine ⟨?_, by rw [Finset.card_erase_of_mem hx, hcard]; omega⟩
      intro y hy
      rcases Finset.mem_insert.1 (Finset.mem_of_mem_erase hy) with rfl | hy
      · exact Finset.mem_range.2 hc
      · exact h.1.1 hy
    have := h.2 _ hcom
    have e1 : loss f p V x = score f p V - score f p (V.erase x) := rfl
    have e2 : gain f p W c = score f p V - score f p W := rfl
    linarith
  have h1 := Finset.card_nsmul_le_sum V (fun x => loss f p V x) _ hle
  rw [hcard, nsmul_eq_mul] at h1
  push_cast at h1
  have h2 := representedBy_le_add hp W V
  have h3 : V \ W = {c} := by
    rw [hV]
    ext y
    simp only [Finset.mem_sdiff, Finset.mem_insert, Finset.mem_singleton]
    constructor
    · tauto
    · rintro rfl; exact ⟨Or.inl rfl, hcW⟩
  rw [h3, Finset.sum_singleton] at h2
  linarith

/-- PAV represents at least half as many voters as every other committee. -/
theorem pav_represents (hp : p.WF) {k : ℕ} (hk : 0 < k) (h : ThieleOpt (marginalFct .pav) p k W) (hB : IsCommittee p k B) :
    representedBy p B ≤ 2 * representedBy p W := by
  have hkq : (0 : ℚ) < k := by exact_mod_cast hk
  have h1 := representedBy_le_add hp W B
  have h2 : (k : ℚ) * ∑ c ∈ B \ W, wt p (newlyRepresented p W c) ≤ k * representedBy p W := by
    rw [Finset.mul_sum]
    refine (Finset.sum_le_card_nsmul _ _ (representedBy p W) fun c hc => ?_).trans ?_
    · obtain ⟨hcB, hcW⟩ := Finset.mem_sdiff.1 hc
      refine le_trans (mul_le_mul_of_nonneg_left (newlyRepresented_le_gain hp W hcW) hkq.le) ?_
      exact pav_gain_represented hp h (Finset.mem_range.1 (hB.1 hcB)) hcW
    · rw [nsmul_eq_mul]
      refine mul_le_mul_of_nonneg_right ?_ (representedBy_nonneg hp W)
      have := Finset.card_le_card (Finset.sdiff_subset (s := B) (t := W))
      rw [hB.2] at this
      exact_mod_cast this
  have h3 := le_of_mul_le_mul_left h2 hkq
  linarith

/-- The approvals of a candidate who is not elected by PAV. -/
theorem pav_backers (hp : p.WF) {k : ℕ} (h : ThieleOpt (marginalFct .pav) p k W) {c : ℕ} (hc : c < p.numCand) (hcW : c ∉ W) :
    (k : ℚ) * wt p (backers p c) ^ 2 ≤ (welfare p W + wt p (backers p c)) * welfare p W := by
  have hg := pav_gain_represented hp h hc hcW
  have hru := representedBy_le_welfare hp W
  set n := wt p (backers p c) with hn
  have hn0 : 0 ≤ n := wt_nonneg hp _
  have hU0 : 0 ≤ welfare p W := (representedBy_nonneg hp W).trans hru
  have hge : ∑ i ∈ backers p c, (p.voters.get i).weight / ((sat p W i : ℚ) + 1) ≤ gain (marginalFct .pav) p W c := by
    have := gains_group hp W {c} (backers p c) (fun d hd => by rw [Finset.mem_singleton] at hd; rwa [hd])
    rw [Finset.sum_singleton] at this
    refine le_trans (Finset.sum_le_sum fun i hi => le_of_eq ?_) this
    have h1 : appr p i ∩ {c} = {c} := Finset.inter_eq_right.2 (Finset.singleton_subset_iff.2 (Finset.mem_filter.1 hi).2)
    rw [h1, Finset.card_singleton]
    push_cast
    ring
  have hcs : n ^ 2 ≤ (∑ i ∈ backers p c, (p.voters.get i).weight * ((sat p W i : ℚ) + 1)) *
      ∑ i ∈ backers p c, (p.voters.get i).weight / ((sat p W i : ℚ) + 1) := by
    rw [hn]
    unfold wt
    refine Finset.sum_sq_le_sum_mul_sum_of_sq_le_mul _ (fun i _ => ?_) (fun i _ => ?_) (fun i _ => ?_)
    · exact mul_nonneg (weight_pos hp i).le (by positivity)
    · exact div_nonneg (weight_pos hp i).le (by positivity)
    · have : (sat p W i : ℚ) + 1 ≠ 0 := by positivity
      refine le_of_eq ?_
      field_simp
  have hexp : ∑ i ∈ backers p c, (p.voters.get i).weight * ((sat p W i : ℚ) + 1) ≤ welfare p W + n := by
    rw [hn]
    unfold welfare wt
    have e : ∑ i ∈ backers p c, (p.voters.get i).weight * ((sat p W i : ℚ) + 1) =
        ∑ i ∈ backers p c, (p.voters.get i).weight * (sat p W i : ℚ) + ∑ i ∈ backers p c, (p.voters.get i).weight := by
      rw [← Finset.sum_add_distrib]
      exact Finset.sum_congr rfl fun i _ => by ring
    rw [e]
    exact add_le_add (Finset.sum_le_sum_of_subset_of_nonneg (Finset.subset_univ _) fun i _ _ =>
      mul_nonneg (weight_pos hp i).le (by positivity)) le_rfl
  have hd0 : 0 ≤ ∑ i ∈ backers p c, (p.voters.get i).weight / ((sat p W i : ℚ) + 1) :=
    Finset.sum_nonneg fun i _ => div_nonneg (weight_pos hp i).le (by positivity)
  have h1 : n ^ 2 ≤ (welfare p W + n) * gain (marginalFct .pav) p W c :=
    hcs.trans (mul_le_mul hexp hge hd0 (by linarith))
  calc (k : ℚ) * n ^ 2 ≤ k * ((welfare p W + n) * gain (marginalFct .pav) p W c) := mul_le_mul_of_nonneg_left h1 (by positivity)
    _ = (welfare p W + n) * (k * gain (marginalFct .pav) p W c) := by ring
    _ ≤ (welfare p W + n) * welfare p W := mul_le_mul_of_nonneg_left (hg.trans hru) (by linarith)

theorem sqrt_bound {k n U : ℝ} (hk : 0 < k) (hn : 0 ≤ n) (hU : 0 ≤ U) (h : k * n ^ 2 ≤ (U + n) * U) :
    k * n ≤ (1 + Real.sqrt k) * U := by
  set s := Real.sqrt k with hs
  have hs0 : 0 < s := Real.sqrt_pos.2 hk
  have hss : k = s * s := (Real.mul_self_sqrt hk.le).symm
  rw [hss] at h ⊢
  by_contra hcon
  push Not at hcon
  -- `s * s * n > (1 + s) * U`
  have hn' : 0 < n := by
    rcases hn.lt_or_eq with h0 | h0
    · exact h0
    · exfalso
      rw [← h0] at hcon
      have : 0 ≤ (1 + s) * U := by positivity
      linarith
  have h1 : s * U < s * s * n - U := by linarith
  have h2 : n * (s * U) < n * (s * s * n - U) := mul_lt_mul_of_pos_left h1 hn'
  have h3 : n * (s * U) < U * U := by nlinarith
  have h4 : (1 + s) * U * U ≤ s * s * n * U := mul_le_mul_of_nonneg_right hcon.le hU
  have h5 : s * (n * (s * U)) < s * (U * U) := mul_lt_mul_of_pos_left h3 hs0
  have h6 : 0 ≤ U * U := mul_nonneg hU hU
  nlinarith

/-- The approvals of the members of a committee of PAV. -/
theorem pav_welfare (hp : p.WF) {k : ℕ} (hk : 0 < k) (h : ThieleOpt (marginalFct .pav) p k W) (hB : IsCommittee p k B) :
    (welfare p B : ℝ) ≤ (2 + Real.sqrt k) * (welfare p W : ℝ) := by
  have hkr : (0 : ℝ) < k := by exact_mod_cast hk
  have hU0 : (0 : ℝ) ≤ (welfare p W : ℝ) := by
    exact_mod_cast (representedBy_nonneg hp W).trans (representedBy_le_welfare hp W)
  have hcand : ∀ c ∈ B \ W, (k : ℝ) * (wt p (backers p c) : ℝ) ≤ (1 + Real.sqrt k) * (welfare p W : ℝ) := by
    intro c hc
    obtain ⟨hcB, hcW⟩ := Finset.mem_sdiff.1 hc
    refine sqrt_bound hkr (by exact_mod_cast wt_nonneg hp _) hU0 ?_
    exact_mod_cast pav_backers hp h (Finset.mem_range.1 (hB.1 hcB)) hcW
  have h1 : welfare p B ≤ welfare p W + ∑ c ∈ B \ W, wt p (backers p c) := by
    rw [welfare_eq_sum, welfare_eq_sum, ← Finset.sum_inter_add_sum_sdiff B W]
    exact add_le_add (Finset.sum_le_sum_of_subset_of_nonneg Finset.inter_subset_right fun c _ _ => wt_nonneg hp _) le_rfl
  have h2 : (k : ℝ) * ∑ c ∈ B \ W, (wt p (backers p c) : ℝ) ≤ k * ((1 + Real.sqrt k) * (welfare p W : ℝ)) := by
    rw [Finset.mul_sum]
    refine (Finset.sum_le_card_nsmul _ _ _ hcand).trans ?_
    rw [nsmul_eq_mul]
    refine mul_le_mul_of_nonneg_right ?_ (by positivity)
    have := Finset.card_le_card (Finset.sdiff_subset (s := B) (t := W))
    rw [hB.2] at this
    exact_mod_cast this
  have h3 := le_of_mul_le_mul_left h2 hkr
  have h4 : (welfare p B : ℝ) ≤ (welfare p W : ℝ) + ∑ c ∈ B \ W, (wt p (backers p c) : ℝ) := by
    have := (Rat.cast_le (K := ℝ)).2 h1
    push_cast at this
    exact this
  linarith

/-- The score of Chamberlin-Courant is the weight of the represented voters. -/
theorem score_cc_representedBy (p : Profile) (W : Finset ℕ) : score (marginalFct .cc) p W = representedBy p W := by
  unfold score
  rw [voters_sum_fin, representedBy_eq]
  refine Finset.sum_congr rfl fun i _ => ?_
  rw [util_sat]
  congr 1
  cases sat p W i with
  | zero => simp
  | succ n =>
    rw [Finset.sum_range_succ', if_pos (Nat.succ_pos n), Finset.sum_eq_zero fun j _ => by simp [marginalFct]]
    simp [marginalFct]

end

/-- **C127** Priceable committees represent at least half as many voters as any other committee of at most the same size. -/
theorem C127_priceable {p : Profile} (hp : p.WF) {W B : Finset ℕ} (hW : W ⊆ Finset.range p.numCand) (hne : W.Nonempty)
    (h : Priceable p W) (hB : B ⊆ Finset.range p.numCand) (hBW : B.card ≤ W.card) : representedBy p B ≤ 2 * representedBy p W :=
  h.represents hp hW hne hB hBW

/-- **C127** Every committee returned by `pav`, `seqphragmen`, `maximin-support` or Equal Shares (completed by seq-Phragmén) represents at
least half as many voters as every other committee of the same size; those returned by `cc` represent as many as possible. -/
theorem C127_represents (w : World) (hw : w.Exact) (p : Profile) (hp : p.WF) (a : Args) {ruleId alg : String}
    (hal : prologue w.env ruleId p a = .ok alg) (h : HalfRule w p a.k alg ruleId) :
    ∃ cs, compute w ruleId p a.committeesize none a.kw = .ok cs ∧ cs ≠ [] ∧ ∀ W ∈ cs, ∀ B, IsCommittee p a.k B →
      representedBy p B ≤ (if ruleId = "cc" then 1 else 2) * representedBy p W.toFinset := by
  have hv := validCall_of_prologue hal
  have hfull : ∀ A : Finset ℕ, A ⊆ Finset.range p.numCand → A.card = a.k → PriceableOrFull false p A → ∀ B, IsCommittee p a.k B →
      representedBy p B ≤ 2 * representedBy p A := by
    intro A hA hc hP B hB
    have := hv.pos
    exact hP.represents hp hA (Finset.card_pos.1 (by omega)) hB.1 (by rw [hB.2, hc])
  have hT : ∃ T, Elects w p a.k alg ruleId T ∧ ∀ A, T A → ∀ B, IsCommittee p a.k B →
      representedBy p B ≤ (if ruleId = "cc" then 1 else 2) * representedBy p A := by
    cases h with
    | cc h =>
      refine ⟨_, .thiele (s := .cc) rfl (Or.inr (Or.inr (Or.inl rfl))) h, fun A hA B hB => ?_⟩
      have := hA.2 B hB
      rw [score_cc_representedBy, score_cc_representedBy] at this
      rw [if_pos rfl, one_mul]
      exact this
    | pav h =>
      exact ⟨_, .thiele (s := .pav) rfl (Or.inl rfl) h, fun A hA B hB => by rw [if_neg (by decide)]; exact pav_represents hp hv.pos hA hB⟩
    | seqphragmen h1 h2 =>
      refine ⟨_, .seqphragmen h1 h2, fun A hA => ?_⟩
      have hcom := isCommittee_of_run (p := p) (fun W s c h => ⟨h.1, h.2.1⟩) hA
      rw [if_neg (by decide)]
      exact hfull A hcom.1 hcom.2 (seqphragmen_priceable hp hA)
    | maximinSupport h1 h2 =>
      refine ⟨_, .maximinSupport h1 h2, fun A hA => ?_⟩
      have hval := elects_valid (w := w) (alg := alg) (.maximinSupport h1 h2) hA
      rw [if_neg (by decide)]
      exact hfull A hval.1 (hval.2.2 (by decide)) (maximin_priceable hp hv.pos hA)
    | equalShares h h1 h2 =>
      refine ⟨_, .equalShares h h1 h2, fun A hA => ?_⟩
      have hval := mesWinner_valid hA
      rw [if_neg (by rintro rfl; simp at h)]
      exact hfull A hval.1 (hval.2.2 (by simp)) (mesWinner_priceable hp hv.voters _ (Or.inr rfl) hA)
  obtain ⟨T, hT, hE⟩ := hT
  obtain ⟨cs, h1, h2, -⟩ := C31_valid w hw p hp a ruleId alg hal hT
  exact ⟨cs, h1, h2, fun W hW => hE _ (answers_mem (C31_compute w hw p hp a ruleId alg hal hT) h1 hW)⟩

/-- **C127** Every committee returned by `seqcc` represents at least `1 - (1 - 1/k)^k` (more than 63 percent) of the voters that can be
represented. -/
theorem C127_seqcc (w : World) (hw : w.Exact) (p : Profile) (hp : p.WF) (a : Args) {alg : String}
    (hal : prologue w.env "seqcc" p a = .ok alg) :
    ∃ cs, compute w "seqcc" p a.committeesize none a.kw = .ok cs ∧ cs ≠ [] ∧ ∀ W ∈ cs, ∀ B, IsCommittee p a.k B →
      (1 - (1 - 1 / (a.k : ℚ)) ^ a.k) * representedBy p B ≤ representedBy p W.toFinset := by
  have := C108_seq_approximation w hw p hp a (sid := "cc") (s := .cc) rfl trivial hal
  simp only [score_cc_representedBy] at this
  exact this

/-- **C127** The members of every committee returned by `pav` have at least `1/(2 + √k)` of the approvals of the members of every other
committee of size `k`. -/
theorem C127_pav_welfare (w : World) (hw : w.Exact) (p : Profile) (hp : p.WF) (a : Args) {alg : String}
    (hal : prologue w.env "pav" p a = .ok alg) (hint : alg = "ortools-cp" → IntegerWeights p) :
    ∃ cs, compute w "pav" p a.committeesize none a.kw = .ok cs ∧ cs ≠ [] ∧ ∀ W ∈ cs, ∀ B, IsCommittee p a.k B →
      (welfare p B : ℝ) ≤ (2 + Real.sqrt a.k) * (welfare p W.toFinset : ℝ) := by
  have hv := validCall_of_prologue hal
  have hE : Elects w p a.k alg "pav" _ := .thiele (s := .pav) rfl (Or.inl rfl) hint
  obtain ⟨cs, h1, h2, -⟩ := C31_valid w hw p hp a _ alg hal hE
  exact ⟨cs, h1, h2, fun W hW B hB => pav_welfare hp hv.pos (answers_mem (C31_compute w hw p hp a _ alg hal hE) h1 hW) hB⟩

/-- **C127** The two extremes: the members of committees returned by `av` have as many approvals as possible, and represent at least
`1/k` of the voters that can be represented; … -/
theorem C127_av (w : World) (hw : w.Exact) (p : Profile) (hp : p.WF) (a : Args) {alg : String}
    (hal : prologue w.env "av" p a = .ok alg) :
    ∃ cs, compute w "av" p a.committeesize none a.kw = .ok cs ∧ cs ≠ [] ∧ ∀ W ∈ cs, ∀ B, IsCommittee p a.k B →
      welfare p B ≤ welfare p W.toFinset ∧ representedBy p B ≤ a.k * representedBy p W.toFinset := by
  have hE : Elects w p a.k alg "av" _ := .av
  obtain ⟨cs, h1, h2, -⟩ := C31_valid w hw p hp a _ alg hal hE
  refine ⟨cs, h1, h2, fun W hW B hB => ?_⟩
  obtain ⟨h3, h4⟩ := answers_mem (C31_compute w hw p hp a _ alg hal hE) h1 hW
  have h5 := h4 B hB
  simp only [candScore_av_wt, ← welfare_eq_sum] at h5
  have h6 := welfare_le_represented hp W.toFinset
  rw [h3.2] at h6
  exact ⟨h5, ((representedBy_le_welfare hp B).trans h5).trans h6⟩

/-- **C127** … the members of committees returned by `cc` have at least `1/k` of the approvals possible. -/
theorem C127_cc (w : World) (hw : w.Exact) (p : Profile) (hp : p.WF) (a : Args) {alg : String}
    (hal : prologue w.env "cc" p a = .ok alg) (hint : alg = "ortools-cp" → IntegerWeights p) :
    ∃ cs, compute w "cc" p a.committeesize none a.kw = .ok cs ∧ cs ≠ [] ∧ ∀ W ∈ cs, ∀ B, IsCommittee p a.k B →
      welfare p B ≤ a.k * welfare p W.toFinset := by
  obtain ⟨cs, h1, h2, h3⟩ := C127_represents w hw p hp a hal (.cc hint)
  refine ⟨cs, h1, h2, fun W hW B hB => ?_⟩
  have h4 := h3 W hW B hB
  rw [if_pos rfl, one_mul] at h4
  have h5 := welfare_le_represented hp B
  rw [hB.2] at h5
  exact h5.trans (mul_le_mul_of_nonneg_left (h4.trans (representedBy_le_welfare hp _)) (by positivity))

/-- Non-vacuity: the hypotheses of C127 hold for concrete calls. -/
example : greedyTrap.WF ∧
    prologue exampleEnv "pav" greedyTrap { committeesize := 2, resolute := false } = .ok "branch-and-bound" ∧
    prologue exampleEnv "cc" greedyTrap { committeesize := 2, resolute := false } = .ok "branch-and-bound" ∧
    prologue exampleEnv "av" greedyTrap { committeesize := 2, resolute := false } = .ok "standard" ∧
    prologue exampleEnv "seqcc" greedyTrap { committeesize := 2, resolute := false } = .ok "standard" ∧
    prologue exampleEnv "equal-shares" greedyTrap { committeesize := 2, resolute := false, algorithm := "standard-fractions" } =
      .ok "standard-fractions" ∧
    ApproversAtLeastOne greedyTrap ∧ IsCommittee greedyTrap 2 {1, 2} :=
  ⟨⟨by decide, by decide, by decide, by decide⟩, by decide +kernel, by decide +kernel, by decide +kernel, by decide +kernel,
    by decide +kernel, approversAtLeastOne_of_weights (by decide +kernel), by decide, by decide⟩

/-- Five voters approve candidates 0, 1 and 2; four voters candidate 3 and four voters candidate 4. -/
def bigAndSmall : Profile := ⟨5, [⟨[0, 1, 2], 5⟩, ⟨[3], 4⟩, ⟨[4], 4⟩], []⟩

/-- **C127** Contrast: AV does not represent half of the voters that can be represented, PAV does not have the best welfare. -/
theorem C127_contrast : thieleBruteforce (marginalFct .av) bigAndSmall 3 false none = .ok [[0, 1, 2]] ∧
    representedBy bigAndSmall {0, 1, 2} = 5 ∧ representedBy bigAndSmall {0, 3, 4} = 13 ∧
    thieleBruteforce (marginalFct .pav) bigAndSmall 3 false none = .ok [[0, 3, 4], [1, 3, 4], [2, 3, 4]] ∧
    welfare bigAndSmall {0, 3, 4} = 13 ∧ welfare bigAndSmall {0, 1, 2} = 15 := by
  decide +kernel

end Abc
