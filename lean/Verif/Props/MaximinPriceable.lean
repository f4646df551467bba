import Verif.Props.MaximinSupport
import Verif.Spec.Dominance
import Verif.Spec.Prices
import Verif.Props.PriceableRules
import Verif.Lemmas.Groups

/-!
# Maximin support is priceable
-/

namespace Abc

open Spec

section
variable {p : Profile}

theorem unapproved_iff {c : ℕ} : Unapproved p c ↔ backers p c = ∅ := by
  rw [Finset.eq_empty_iff_forall_notMem]
  constructor
  · intro h i hi
    exact h _ (List.get_mem _ i) (List.mem_toFinset.2 (mem_backers.1 hi))
  · intro h v hv hc
    obtain ⟨i, rfl⟩ := List.get_of_mem hv
    exact h i (mem_backers.2 (List.mem_toFinset.1 hc))

theorem approved_iff {c : ℕ} : ¬ Unapproved p c ↔ (backers p c).Nonempty := by
  rw [unapproved_iff, Finset.nonempty_iff_ne_empty]

theorem mem_approvedSet_iff {c : ℕ} : c ∈ approvedSet p ↔ ¬ Unapproved p c := by
  rw [approved_iff]
  unfold approvedSet Finset.Nonempty
  simp only [Finset.mem_biUnion, Finset.mem_univ, true_and, mem_backers, mem_appr]

/-- `ApprovedFirst` for sets. -/
def FirstSet (p : Profile) (A : Finset ℕ) : Prop := ∀ d ∈ A, Unapproved p d → ∀ c < p.numCand, ¬ Unapproved p c → c ∈ A

theorem firstSet_of_subset {A : Finset ℕ} (h : ∀ d ∈ A, ¬ Unapproved p d) : FirstSet p A := fun d hd hu => absurd hu (h d hd)

/-- The weights can be distributed among approved candidates such that all of them get something. -/
theorem support_positive (hp : p.WF) {A : Finset ℕ} (h : ∀ d ∈ A, ¬ Unapproved p d) : ∃ t, 0 < t ∧ SupportAtLeast p A t := by
  rcases A.eq_empty_or_nonempty with rfl | hne
  · exact ⟨1, one_pos, fun _ _ => 0, by simp, by simp, fun i => by simpa using (weight_pos hp i).le, by simp⟩
  · have hcard : (0 : ℚ) < A.card := by exact_mod_cast hne.card_pos
    have hpos : ∀ d ∈ A, 0 < wt p (backers p d) / A.card := fun d hd =>
      div_pos (Finset.sum_pos (fun i _ => weight_pos hp i) (approved_iff.1 (h d hd))) hcard
    obtain ⟨d, hd, hmin⟩ := Finset.exists_min_image A (fun d => wt p (backers p d) / A.card) hne
    refine ⟨_, hpos d hd, fun i c => if c ∈ appr p i then (p.voters.get i).weight / A.card else 0, ?_, ?_, ?_, ?_⟩
    · intro i c
      show 0 ≤ if c ∈ appr p i then (p.voters.get i).weight / (A.card : ℚ) else 0
      split_ifs
      · exact (div_pos (weight_pos hp i) hcard).le
      · exact le_rfl
    · intro i c hc
      by_contra h'
      exact hc (if_neg h')
    · intro i
      refine le_trans (Finset.sum_le_card_nsmul A _ ((p.voters.get i).weight / A.card) fun c _ => ?_) ?_
      · show (if c ∈ appr p i then (p.voters.get i).weight / (A.card : ℚ) else 0) ≤ _
        split_ifs
        · exact le_rfl
        · exact (div_pos (weight_pos hp i) hcard).le
      · rw [nsmul_eq_mul, mul_div_cancel₀ _ hcard.ne']
    · intro c hc
      refine (hmin c hc).trans (le_of_eq ?_)
      unfold wt backers
      rw [Finset.sum_div, Finset.sum_filter]

theorem first_maximin (hp : p.WF) {W : List ℕ} {s : Unit}
    (h : Run (fun W (_ : Unit) c => MaximinBest 0 p W c) (fun _ _ _ => ()) [] () W s) : FirstSet p W.toFinset := by
  induction h with
  | start => intro d hd; simp at hd
  | @step W x e _ hb ih =>
    intro d hd hu c hlt hca
    rw [List.mem_toFinset, List.mem_append, List.mem_singleton] at hd ⊢
    by_cases hcW : c ∈ W
    · exact Or.inl hcW
    · rcases hd with hd | rfl
      · exact absurd (List.mem_toFinset.1 (ih d (List.mem_toFinset.2 hd) hu c hlt hca)) hcW
      · exfalso
        obtain ⟨t, ht, hs⟩ := support_positive hp (A := insert c W.toFinset) (fun x hx => by
          rcases Finset.mem_insert.1 hx with rfl | hx
          · exact hca
          · exact fun hxu => hcW (List.mem_toFinset.1 (ih x hx hxu c hlt hca)))
        obtain ⟨f, -, h2, -, h4⟩ := hb.2.2 c hlt hcW t hs
        have h5 := h4 d (Finset.mem_insert_self _ _)
        rw [Finset.sum_eq_zero (fun i _ => by
          by_contra hne
          exact hu _ (List.get_mem _ i) (h2 i d hne))] at h5
        linarith

theorem support_anti {W W' : Finset ℕ} (h : W ⊆ W') {t : ℚ} (ht : SupportAtLeast p W' t) (hp : p.WF) : SupportAtLeast p W t := by
  rw [C67_support_iff hp] at ht ⊢
  exact fun C hC => ht C (hC.trans h)

/-- If `s` is the support of the committee then every unelected candidate, together with some members, is supported by at most `s` per
candidate. -/
theorem mmRun_tight (hp : p.WF) {W : List ℕ} {u : Unit} (hr : Run (mmBest 0 p) mmUpd [] () W u) {s : ℚ}
    (hs : SupportAtLeast p W.toFinset s) (hmax : ∀ η > 0, ¬ SupportAtLeast p W.toFinset (s + η)) {c : ℕ} (hc : c < p.numCand)
    (hcW : c ∉ W) : ∃ C ⊆ W.toFinset, wt p (backersOf p (insert c C)) ≤ s * (C.card + 1) := by
  classical
  induction hr with
  | start =>
    exact absurd ((C67_support_iff hp _ _).2 (fun C hC => by
      have : C = ∅ := by simpa using hC
      subst this
      simpa using wt_nonneg' hp _)) (hmax 1 one_pos)
  | @step W u d hr hd ih =>
    have hins : (W ++ [d]).toFinset = insert d W.toFinset := by ext e; simp [or_comm]
    rw [hins] at hs hmax ⊢
    have hcW' : c ∉ W := fun h => hcW (List.mem_append_left _ h)
    by_cases hW : ∀ η > 0, ¬ SupportAtLeast p W.toFinset (s + η)
    · obtain ⟨C, hC, h⟩ := ih (support_anti (Finset.subset_insert _ _) hs hp) hW hcW'
      exact ⟨C, hC.trans (Finset.subset_insert _ _), h⟩
    · push Not at hW
      obtain ⟨η₀, hη₀, hW⟩ := hW
      by_contra hcon
      push Not at hcon
      obtain ⟨C₀, hC₀, hmin⟩ := W.toFinset.powerset.exists_min_image
        (fun C => wt p (backersOf p (insert c C)) / ((C.card : ℚ) + 1)) ⟨∅, by simp⟩
      have hpos : ∀ C : Finset ℕ, (0 : ℚ) < (C.card : ℚ) + 1 := fun C => by positivity
      have hC₀s : s < wt p (backersOf p (insert c C₀)) / ((C₀.card : ℚ) + 1) := by
        rw [lt_div_iff₀ (hpos C₀)]
        exact hcon C₀ ((Finset.mem_powerset.1 hC₀).trans (Finset.subset_insert _ _))
      set η := min η₀ (wt p (backersOf p (insert c C₀)) / ((C₀.card : ℚ) + 1) - s) with hη
      have hηpos : 0 < η := lt_min hη₀ (by linarith)
      have key : SupportAtLeast p (insert c W.toFinset) (s + η) := by
        rw [C67_support_iff hp] at hW ⊢
        intro C hC
        by_cases hcC : c ∈ C
        · have hE : C.erase c ⊆ W.toFinset := by
            intro e he
            rcases Finset.mem_insert.1 (hC (Finset.mem_of_mem_erase he)) with h | h
            · exact absurd h (Finset.ne_of_mem_erase he)
            · exact h
          have h1 := hmin (C.erase c) (Finset.mem_powerset.2 hE)
          have h2 : s + η ≤ wt p (backersOf p (insert c (C.erase c))) / (((C.erase c).card : ℚ) + 1) := by
            have := min_le_right η₀ (wt p (backersOf p (insert c C₀)) / ((C₀.card : ℚ) + 1) - s)
            rw [← hη] at this
            linarith
          rw [le_div_iff₀ (hpos _), Finset.insert_erase hcC] at h2
          have h3 : ((C.erase c).card : ℚ) + 1 = C.card := by
            rw [← Finset.card_erase_add_one hcC]; push_cast; rfl
          rw [h3] at h2
          linarith
        · have h1 := hW C (fun e he => by
            rcases Finset.mem_insert.1 (hC he) with rfl | h
            · exact absurd he hcC
            · exact h)
          have h2 : s + η ≤ s + η₀ := by
            have := min_le_left η₀ (wt p (backersOf p (insert c C₀)) / ((C₀.card : ℚ) + 1) - s)
            linarith
          exact (mul_le_mul_of_nonneg_left h2 (by positivity)).trans h1
      have := hd.2.2 c hc hcW' _ key
      rw [sub_zero] at this
      exact hmax η hηpos this

/-- Maximin support is priceable: the price of a candidate is the support of the committee. -/
theorem maximin_priceable (hp : p.WF) {k : ℕ} (hk : 0 < k) {A : Finset ℕ} (h : MaximinWinner 0 p k A) : PriceableOrFull false p A := by
  classical
  obtain ⟨W, u, hr, hl, rfl⟩ := h
  have hlt := (mmRun_nodup hr).2
  have hfirst : FirstSet p W.toFinset := first_maximin hp hr
  unfold PriceableOrFull
  split
  · next hcard =>
    obtain ⟨d, hd, hda⟩ : ∃ d ∈ W.toFinset, d ∉ approvedSet p := by
      by_contra hcon
      push Not at hcon
      exact absurd (Finset.card_le_card hcon) (not_le.2 hcard)
    intro c hc
    have hcu := mem_approvedSet_iff.1 hc
    have hcn : c < p.numCand := by
      obtain ⟨i, hi⟩ := approved_iff.1 hcu
      exact appr_lt hp (mem_appr.2 (mem_backers.1 hi))
    exact hfirst d hd (by by_contra hne; exact hda (mem_approvedSet_iff.2 hne)) c hcn hcu
  · next hcard =>
    push Not at hcard
    rw [if_neg (by simp)]
    have hsub : W.toFinset ⊆ approvedSet p := by
      intro d hd
      by_contra hda
      have hall : approvedSet p ⊆ W.toFinset.erase d := by
        intro c hc
        have hcu := mem_approvedSet_iff.1 hc
        have hcn : c < p.numCand := by
          obtain ⟨i, hi⟩ := approved_iff.1 hcu
          exact appr_lt hp (mem_appr.2 (mem_backers.1 hi))
        refine Finset.mem_erase.2 ⟨fun h => hda (h ▸ hc), ?_⟩
        exact hfirst d hd (by by_contra hne; exact hda (mem_approvedSet_iff.2 hne)) c hcn hcu
      have h1 := Finset.card_le_card hall
      rw [Finset.card_erase_of_mem hd] at h1
      have : 0 < W.toFinset.card := Finset.card_pos.2 ⟨d, hd⟩
      omega
    have hne : W.toFinset.Nonempty := by
      rw [List.toFinset_nonempty_iff]
      rintro rfl
      simp at hl
      omega
    obtain ⟨s, hs, C₁, hC₁, hC₁n, hsC⟩ := C67_max_support hp hne
    have hspos : 0 < s := by
      rw [hsC]
      refine div_pos ?_ (by exact_mod_cast hC₁n.card_pos)
      obtain ⟨c, hc⟩ := hC₁n
      obtain ⟨i, -, hi⟩ := Finset.mem_biUnion.1 (hsub (hC₁ hc))
      refine Finset.sum_pos (fun i _ => weight_pos hp i) ⟨i, ?_⟩
      simp only [backersOf, Finset.mem_filter, Finset.mem_univ, true_and]
      exact ⟨c, hc, hi⟩
    obtain ⟨f, f1, f2, f3, f4⟩ := (hs s).2 le_rfl
    have hsum : ∀ c ∈ W.toFinset, 0 < ∑ i, f i c := fun c hc => lt_of_lt_of_le hspos (f4 c hc)
    set pay : Fin p.voters.length → ℕ → ℚ := fun i c => if c ∈ W.toFinset then f i c / ∑ i, f i c else 0 with hpay
    have hpayW : ∀ i, ∀ c ∈ W.toFinset, pay i c = f i c / ∑ i, f i c := fun i c hc => by rw [hpay]; simp only [hc, if_true]
    have hpay0 : ∀ i c, 0 ≤ pay i c := by
      intro i c
      rw [hpay]; dsimp only
      split
      · next hc => exact div_nonneg (f1 i c) (hsum c hc).le
      · exact le_rfl
    have hone : ∀ c ∈ W.toFinset, ∑ i, pay i c = 1 := by
      intro c hc
      rw [Finset.sum_congr rfl (fun i _ => hpayW i c hc), ← Finset.sum_div, div_self (hsum c hc).ne']
    have happr : ∀ i c, pay i c ≠ 0 → c ∈ appr p i := by
      intro i c hne
      rw [hpay] at hne; dsimp only at hne
      split at hne
      · exact f2 i c (fun h => hne (by rw [h, zero_div]))
      · exact absurd rfl hne
    have hbud : ∀ i, ∑ c ∈ W.toFinset, pay i c ≤ (p.voters.get i).weight * (1 / s) := by
      intro i
      have h1 : ∑ c ∈ W.toFinset, pay i c ≤ ∑ c ∈ W.toFinset, f i c * (1 / s) := by
        refine Finset.sum_le_sum fun c hc => ?_
        rw [hpayW i c hc, div_eq_mul_one_div]
        exact mul_le_mul_of_nonneg_left (one_div_le_one_div_of_le hspos (f4 c hc)) (f1 i c)
      rw [← Finset.sum_mul] at h1
      exact h1.trans (mul_le_mul_of_nonneg_right (f3 i) (by positivity))
    refine ⟨1 / s, pay, ⟨by positivity, hpay0, happr, fun i => ?_, hone, fun c hc hcW => ?_⟩, fun c hc hcW => ?_⟩
    · have : ∑ c ∈ Finset.range p.numCand, pay i c = ∑ c ∈ W.toFinset, pay i c := by
        symm
        refine Finset.sum_subset (fun c hc => Finset.mem_range.2 (hlt c (List.mem_toFinset.1 hc))) (fun c _ hc => ?_)
        rw [hpay]; simp only [hc, if_false]
      rw [this]
      exact hbud i
    · refine Finset.sum_eq_zero fun i _ => ?_
      rw [hpay]; simp only [hcW, if_false]
    · obtain ⟨C, hC, hCle⟩ := mmRun_tight hp hr ((hs s).2 le_rfl) (fun η hη h => by have := (hs _).1 h; linarith) hc
        (fun h => hcW (List.mem_toFinset.2 h))
      have hleft : ∀ i, 0 ≤ leftAfter p W.toFinset (1 / s) pay i := fun i => by
        unfold leftAfter; linarith [hbud i]
      have h1 : ∑ i with c ∈ appr p i, leftAfter p W.toFinset (1 / s) pay i
          ≤ ∑ i ∈ backersOf p (insert c C), leftAfter p W.toFinset (1 / s) pay i := by
        refine Finset.sum_le_sum_of_subset_of_nonneg (fun i hi => ?_) (fun i _ _ => hleft i)
        simp only [backersOf, Finset.mem_filter, Finset.mem_univ, true_and] at hi ⊢
        exact ⟨c, Finset.mem_insert_self _ _, hi⟩
      have h2 : ∑ i ∈ backersOf p (insert c C), leftAfter p W.toFinset (1 / s) pay i
          ≤ wt p (backersOf p (insert c C)) * (1 / s) - C.card := by
        unfold leftAfter
        rw [Finset.sum_sub_distrib, ← Finset.sum_mul]
        have h3 : (C.card : ℚ) ≤ ∑ i ∈ backersOf p (insert c C), ∑ d ∈ W.toFinset, pay i d := by
          rw [Finset.sum_comm]
          have h4 : ∑ d ∈ C, (1 : ℚ) ≤ ∑ d ∈ W.toFinset, ∑ i ∈ backersOf p (insert c C), pay i d := by
            refine le_trans (Finset.sum_le_sum fun d hd => ?_) (Finset.sum_le_sum_of_subset_of_nonneg hC
              (fun d _ _ => Finset.sum_nonneg fun i _ => hpay0 i d))
            rw [← hone d (hC hd)]
            refine (Finset.sum_subset (Finset.subset_univ _) (fun i _ hi => ?_)).ge
            by_contra hne
            refine hi ?_
            simp only [backersOf, Finset.mem_filter, Finset.mem_univ, true_and]
            exact ⟨d, Finset.mem_insert_of_mem hd, happr i d hne⟩
          simpa using h4
        change wt p _ * (1 / s) - _ ≤ _
        linarith
      have h3 : wt p (backersOf p (insert c C)) * (1 / s) ≤ C.card + 1 := by
        rw [mul_one_div, div_le_iff₀ hspos]
        linarith
      linarith

end

end Abc
