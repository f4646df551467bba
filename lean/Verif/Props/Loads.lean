import Verif.Spec.Loads
import Verif.Lemmas.Hall
import Verif.Lemmas.VoterMaps

/-!
# C67: load distributions and supports exist if and only if a Hall condition holds
-/

namespace Abc
open Spec

/-- The voters approving some candidate in `C`. -/
def backersOf (p : Profile) (C : Finset ℕ) : Group p := Finset.univ.filter (fun i => ∃ c ∈ C, c ∈ appr p i)

theorem wt_nonneg' {p : Profile} (hp : p.WF) (G : Group p) : 0 ≤ wt p G :=
  Finset.sum_nonneg fun i _ => (weight_pos hp i).le

/-- **C67** The candidates in `A` can be given loads at most `t` if and only if every `C ⊆ A` has supporters of total weight `w` with
`|C| ≤ t w`. -/
theorem C67_load_iff {p : Profile} (hp : p.WF) (hn : p.voters ≠ []) (A : Finset ℕ) (t : ℚ) :
    LoadWithin p A t ↔ 0 ≤ t ∧ ∀ C ⊆ A, (C.card : ℚ) ≤ t * wt p (backersOf p C) := by
  classical
  constructor
  · rintro ⟨x, hx, ht⟩
    have h0 : 0 ≤ t := by
      have i : Fin p.voters.length := ⟨0, List.length_pos_of_ne_nil hn⟩
      exact (Finset.sum_nonneg fun c _ => hx.nonneg i c).trans (ht i)
    refine ⟨h0, fun C hC => ?_⟩
    calc (C.card : ℚ) = ∑ c ∈ C, ∑ i, (p.voters.get i).weight * x i c := by
          rw [Finset.sum_congr rfl fun c hc => hx.one c (hC hc)]; simp
      _ = ∑ i, ∑ c ∈ C, (p.voters.get i).weight * x i c := Finset.sum_comm
      _ = ∑ i, (if i ∈ backersOf p C then ∑ c ∈ C, (p.voters.get i).weight * x i c else 0) := by
          refine Finset.sum_congr rfl fun i _ => ?_
          split
          · rfl
          · next h =>
            refine Finset.sum_eq_zero fun c hc => ?_
            by_contra hne
            have : x i c ≠ 0 := fun e => hne (by rw [e, mul_zero])
            exact h (by simp only [backersOf, Finset.mem_filter, Finset.mem_univ, true_and]; exact ⟨c, hc, (hx.approved i c this).1⟩)
      _ ≤ ∑ i, (if i ∈ backersOf p C then t * (p.voters.get i).weight else 0) := by
          refine Finset.sum_le_sum fun i _ => ?_
          split
          · rw [← Finset.mul_sum, mul_comm t]
            refine mul_le_mul_of_nonneg_left ?_ (weight_pos hp i).le
            exact (Finset.sum_le_sum_of_subset_of_nonneg hC fun c _ _ => hx.nonneg i c).trans (ht i)
          · exact le_rfl
      _ = t * wt p (backersOf p C) := by
          rw [← Finset.sum_filter, wt, Finset.mul_sum]
          refine Finset.sum_congr ?_ fun _ _ => rfl
          ext i; simp
  · rintro ⟨h0, hC⟩
    obtain ⟨f, f1, f2, f3, f4⟩ := fractional_hall (fun (i : Fin p.voters.length) c => c ∈ appr p i)
      (fun i => t * (p.voters.get i).weight) (fun i => mul_nonneg h0 (weight_pos hp i).le) A 1 zero_le_one (fun C h => by
        rw [mul_one, ← Finset.mul_sum]; exact hC C h)
    refine ⟨fun i c => f i c / (p.voters.get i).weight, ⟨fun i c => div_nonneg (f1 i c) (weight_pos hp i).le, fun i c h => ?_,
      fun c hc => ?_⟩, fun i => ?_⟩
    · refine f2 i c fun e => h ?_
      rw [e, zero_div]
    · rw [← f3 c hc]
      refine Finset.sum_congr rfl fun i _ => ?_
      rw [mul_div_cancel₀ _ (weight_pos hp i).ne']
    · rw [← Finset.sum_div, div_le_iff₀ (weight_pos hp i)]
      exact f4 i

/-- **C67** The members of `W` can each be given support `t` if and only if every `C ⊆ W` has supporters of total weight at least
`|C| t`. -/
theorem C67_support_iff {p : Profile} (hp : p.WF) (W : Finset ℕ) (t : ℚ) :
    SupportAtLeast p W t ↔ ∀ C ⊆ W, (C.card : ℚ) * t ≤ wt p (backersOf p C) := by
  classical
  constructor
  · rintro ⟨f, f1, f2, f3, f4⟩ C hC
    calc (C.card : ℚ) * t = ∑ c ∈ C, t := by simp
      _ ≤ ∑ c ∈ C, ∑ i, f i c := Finset.sum_le_sum fun c hc => f4 c (hC hc)
      _ = ∑ i, ∑ c ∈ C, f i c := Finset.sum_comm
      _ = ∑ i, (if i ∈ backersOf p C then ∑ c ∈ C, f i c else 0) := by
          refine Finset.sum_congr rfl fun i _ => ?_
          split
          · rfl
          · next h =>
            refine Finset.sum_eq_zero fun c hc => ?_
            by_contra hne
            exact h (by simp only [backersOf, Finset.mem_filter, Finset.mem_univ, true_and]; exact ⟨c, hc, f2 i c hne⟩)
      _ ≤ ∑ i, (if i ∈ backersOf p C then (p.voters.get i).weight else 0) := by
          refine Finset.sum_le_sum fun i _ => ?_
          split
          · exact (Finset.sum_le_sum_of_subset_of_nonneg hC fun c _ _ => f1 i c).trans (f3 i)
          · exact le_rfl
      _ = wt p (backersOf p C) := by
          rw [← Finset.sum_filter, wt]
          refine Finset.sum_congr ?_ fun _ _ => rfl
          ext i; simp
  · intro h
    rcases le_or_gt 0 t with h0 | h0
    · obtain ⟨f, f1, f2, f3, f4⟩ := fractional_hall (fun (i : Fin p.voters.length) c => c ∈ appr p i)
        (fun i => (p.voters.get i).weight) (fun i => (weight_pos hp i).le) W t h0 h
      exact ⟨f, f1, fun i c hne => (f2 i c hne).1, f4, fun c hc => (f3 c hc).ge⟩
    · exact ⟨fun _ _ => 0, by simp, by simp, fun i => by simpa using (weight_pos hp i).le, fun c _ => by simpa using h0.le⟩

theorem backersOf_mono {p : Profile} {C D : Finset ℕ} (h : C ⊆ D) : backersOf p C ⊆ backersOf p D := by
  intro i hi
  simp only [backersOf, Finset.mem_filter, Finset.mem_univ, true_and] at hi ⊢
  obtain ⟨c, hc, hi⟩ := hi
  exact ⟨c, h hc, hi⟩

theorem wt_backersOf_pos {p : Profile} (hp : p.WF) {C : Finset ℕ} (hC : C ⊆ approvedSet p) (hne : C.Nonempty) :
    0 < wt p (backersOf p C) := by
  obtain ⟨c, hc⟩ := hne
  have := hC hc
  simp only [approvedSet, Finset.mem_biUnion, Finset.mem_univ, true_and] at this
  obtain ⟨i, hi⟩ := this
  refine Finset.sum_pos (fun j _ => weight_pos hp j) ⟨i, ?_⟩
  simp only [backersOf, Finset.mem_filter, Finset.mem_univ, true_and]
  exact ⟨c, hc, hi⟩

/-- **C67** The smallest possible maximal load of a committee of approved candidates exists; it is `|C| / w` for some part `C` of the
committee and the total weight `w` of its supporters. -/
theorem C67_min_load {p : Profile} (hp : p.WF) (hn : p.voters ≠ []) {A : Finset ℕ} (hA : A ⊆ approvedSet p) (hne : A.Nonempty) :
    ∃ m, (∀ t, LoadWithin p A t ↔ m ≤ t) ∧ ∃ C ⊆ A, C.Nonempty ∧ m = (C.card : ℚ) / wt p (backersOf p C) := by
  classical
  obtain ⟨C, hC, hmax⟩ := (A.powerset.filter Finset.Nonempty).exists_max_image
    (fun C => (C.card : ℚ) / wt p (backersOf p C)) ⟨A, by simp [hne]⟩
  simp only [Finset.mem_filter, Finset.mem_powerset] at hC hmax
  refine ⟨_, fun t => ?_, C, hC.1, hC.2, rfl⟩
  have hpos := wt_backersOf_pos hp (hC.1.trans hA) hC.2
  rw [C67_load_iff hp hn]
  constructor
  · rintro ⟨-, h⟩
    rw [div_le_iff₀ hpos]
    exact h C hC.1
  · intro h
    have h0 : 0 ≤ t := le_trans (by positivity) h
    refine ⟨h0, fun D hD => ?_⟩
    rcases D.eq_empty_or_nonempty with rfl | hDn
    · simpa using mul_nonneg h0 (wt_nonneg' hp _)
    · have h1 := (hmax D ⟨hD, hDn⟩).trans h
      rwa [div_le_iff₀ (wt_backersOf_pos hp (hD.trans hA) hDn)] at h1

/-- **C67** The largest possible minimal support exists; it is `w / |C|` for some part `C` of the committee and the total weight `w` of
its supporters. -/
theorem C67_max_support {p : Profile} (hp : p.WF) {W : Finset ℕ} (hne : W.Nonempty) :
    ∃ m, (∀ t, SupportAtLeast p W t ↔ t ≤ m) ∧ ∃ C ⊆ W, C.Nonempty ∧ m = wt p (backersOf p C) / (C.card : ℚ) := by
  classical
  obtain ⟨C, hC, hmin⟩ := (W.powerset.filter Finset.Nonempty).exists_min_image
    (fun C => wt p (backersOf p C) / (C.card : ℚ)) ⟨W, by simp [hne]⟩
  simp only [Finset.mem_filter, Finset.mem_powerset] at hC hmin
  refine ⟨_, fun t => ?_, C, hC.1, hC.2, rfl⟩
  have hcard : ∀ D : Finset ℕ, D.Nonempty → (0 : ℚ) < D.card := fun D hD => by exact_mod_cast hD.card_pos
  rw [C67_support_iff hp]
  constructor
  · intro h
    rw [le_div_iff₀ (hcard C hC.2), mul_comm]
    exact h C hC.1
  · intro h D hD
    rcases D.eq_empty_or_nonempty with rfl | hDn
    · simpa using wt_nonneg' hp _
    · have h1 := h.trans (hmin D ⟨hD, hDn⟩)
      rwa [le_div_iff₀ (hcard D hDn), mul_comm] at h1

end Abc
