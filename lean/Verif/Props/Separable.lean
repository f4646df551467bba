import Verif.Lemmas.Answers
import Verif.Props.Scores
import Mathlib.Algebra.BigOperators.Group.Finset.Piecewise

/-!
# C20: AV and SAV
-/

namespace Abc
open Spec

theorem separableScores_length (r : SepRule) (p : Profile) : (separableScores r p).length = p.numCand := by
  unfold separableScores
  rw [foldl_voters_length p.voters r.amount]
  simp

theorem separableScores_getD (r : SepRule) (p : Profile) (hp : p.WF) (c : ℕ) (hc : c < p.numCand) :
    (separableScores r p).getD c 0 = candScore r p c := by
  unfold separableScores
  rw [foldl_voters_getD p.voters hp.nodup r.amount _ c (by simpa using hc)]
  unfold candScore
  have h0 : (List.replicate p.numCand (0 : ℚ)).getD c 0 = 0 := by
    simp [List.getD_eq_getElem?_getD, hc]
  rw [h0, zero_add]
  congr 1
  refine List.map_congr_left ?_
  intro v hv
  have : v.A.card = v.approved.length := List.toFinset_card_of_nodup (hp.nodup v hv)
  rw [this]
  cases r <;> rfl

/-- Committees maximising a sum of candidate scores, given a threshold. -/
theorem top_k_iff (s : ℕ → ℚ) (U : Finset ℕ) (k : ℕ) (t : ℚ)
    (h1 : (U.filter (fun c => t < s c)).card ≤ k) (h2 : k ≤ (U.filter (fun c => t ≤ s c)).card)
    (A : Finset ℕ) (hA : A ⊆ U) (hAk : A.card = k) :
    (∀ B, B ⊆ U → B.card = k → ∑ c ∈ B, s c ≤ ∑ c ∈ A, s c) ↔
      (U.filter (fun c => t < s c) ⊆ A ∧ ∀ c ∈ A, t ≤ s c) := by
  set H := U.filter (fun c => t < s c) with hH
  have hval : ∀ B : Finset ℕ, B ⊆ U → B.card = k →
      ∑ c ∈ B, s c = k * t + ∑ c ∈ H, (s c - t) - ∑ c ∈ H \ B, (s c - t) - ∑ c ∈ B \ H, (t - s c) := by
    intro B hB hBk
    have e1 : ∑ c ∈ B, s c = k * t + ∑ c ∈ B, (s c - t) := by
      rw [Finset.sum_sub_distrib, Finset.sum_const, hBk, nsmul_eq_mul]; ring
    have e2 : ∑ c ∈ B, (s c - t) = ∑ c ∈ B ∩ H, (s c - t) - ∑ c ∈ B \ H, (t - s c) := by
      rw [← Finset.sum_inter_add_sum_sdiff B H (fun c => s c - t)]
      have : ∑ c ∈ B \ H, (s c - t) = - ∑ c ∈ B \ H, (t - s c) := by
        rw [← Finset.sum_neg_distrib]; exact Finset.sum_congr rfl (fun _ _ => by ring)
      rw [this]; ring
    have e3 : ∑ c ∈ H, (s c - t) = ∑ c ∈ B ∩ H, (s c - t) + ∑ c ∈ H \ B, (s c - t) := by
      rw [← Finset.sum_inter_add_sum_sdiff H B (fun c => s c - t), Finset.inter_comm]
    rw [e1, e2, e3]; ring
  have hpos1 : ∀ B : Finset ℕ, ∀ c ∈ H \ B, 0 < s c - t := by
    intro B c hc
    have : c ∈ H := (Finset.mem_sdiff.1 hc).1
    rw [hH, Finset.mem_filter] at this
    linarith [this.2]
  have hpos2 : ∀ B : Finset ℕ, B ⊆ U → ∀ c ∈ B \ H, 0 ≤ t - s c := by
    intro B hB c hc
    obtain ⟨a1, a2⟩ := Finset.mem_sdiff.1 hc
    rw [hH, Finset.mem_filter, not_and, not_lt] at a2
    linarith [a2 (hB a1)]
  constructor
  · intro hopt
    -- a set achieving the upper bound
    obtain ⟨C, hC1, hC2, hC3⟩ := Finset.exists_subsuperset_card_eq (s := H) (t := U.filter (fun c => t ≤ s c)) (n := k)
      (by
        intro c hc
        rw [hH, Finset.mem_filter] at hc
        rw [Finset.mem_filter]
        exact ⟨hc.1, hc.2.le⟩) h1 h2
    have hCU : C ⊆ U := hC2.trans (Finset.filter_subset _ _)
    have hle := hopt C hCU hC3
    rw [hval A hA hAk, hval C hCU hC3] at hle
    have z1 : ∑ c ∈ H \ C, (s c - t) = 0 := by
      rw [Finset.sdiff_eq_empty_iff_subset.2 hC1]; simp
    have z2 : ∑ c ∈ C \ H, (t - s c) = 0 := by
      refine Finset.sum_eq_zero ?_
      intro c hc
      have h3 := hpos2 C hCU c hc
      have h4 := (Finset.mem_filter.1 (hC2 (Finset.mem_sdiff.1 hc).1)).2
      linarith
    have n1 : 0 ≤ ∑ c ∈ H \ A, (s c - t) := Finset.sum_nonneg (fun c hc => (hpos1 A c hc).le)
    have n2 : 0 ≤ ∑ c ∈ A \ H, (t - s c) := Finset.sum_nonneg (fun c hc => hpos2 A hA c hc)
    have y1 : ∑ c ∈ H \ A, (s c - t) = 0 := by linarith
    have y2 : ∑ c ∈ A \ H, (t - s c) = 0 := by linarith
    constructor
    · intro c hc
      by_contra hcA
      have hm : c ∈ H \ A := Finset.mem_sdiff.2 ⟨hc, hcA⟩
      have := (Finset.sum_eq_zero_iff_of_nonneg (fun c hc => (hpos1 A c hc).le)).1 y1 c hm
      have := hpos1 A c hm
      linarith
    · intro c hc
      by_cases hcH : c ∈ H
      · rw [hH, Finset.mem_filter] at hcH
        exact hcH.2.le
      · have := (Finset.sum_eq_zero_iff_of_nonneg (fun c hc => hpos2 A hA c hc)).1 y2 c (Finset.mem_sdiff.2 ⟨hc, hcH⟩)
        linarith
  · rintro ⟨g1, g2⟩ B hB hBk
    rw [hval A hA hAk, hval B hB hBk]
    have z1 : ∑ c ∈ H \ A, (s c - t) = 0 := by
      rw [Finset.sdiff_eq_empty_iff_subset.2 g1]; simp
    have z2 : ∑ c ∈ A \ H, (t - s c) = 0 := by
      refine Finset.sum_eq_zero ?_
      intro c hc
      have h3 := hpos2 A hA c hc
      have h4 := g2 c (Finset.mem_sdiff.1 hc).1
      linarith
    have n1 : 0 ≤ ∑ c ∈ H \ B, (s c - t) := Finset.sum_nonneg (fun c hc => (hpos1 B c hc).le)
    have n2 : 0 ≤ ∑ c ∈ B \ H, (t - s c) := Finset.sum_nonneg (fun c hc => hpos2 B hB c hc)
    linarith

/-- The entry `sorted(score)[-k]` is a threshold: fewer than `k` entries are larger, at least `k` are as large. -/
theorem cutoff_spec (l : List ℚ) (k : ℕ) (h1 : 1 ≤ k) (h2 : k ≤ l.length) :
    ∃ t, pyGetFromEnd (sortRat l) k = .ok t ∧ l.countP (fun x => decide (t < x)) < k ∧
      k ≤ l.countP (fun x => decide (t ≤ x)) := by
  set L := sortRat l with hL
  have hperm : L.Perm l := List.perm_insertionSort _ l
  have hlen : L.length = l.length := hperm.length_eq
  have hsort : L.Pairwise (· ≤ ·) := List.pairwise_insertionSort _ l
  have hi : L.length - k < L.length := by omega
  obtain ⟨t, ht⟩ : ∃ t, t = L[L.length - k] := ⟨_, rfl⟩
  refine ⟨t, ?_, ?_, ?_⟩
  · rw [ht]
    unfold pyGetFromEnd
    rw [if_neg (by omega), if_pos (by omega)]
    unfold pyGet
    rw [List.getElem?_eq_getElem hi]
  · rw [← hperm.countP_eq]
    conv_lhs => rw [← List.take_append_drop (L.length - k + 1) L]
    rw [List.countP_append]
    have : (L.take (L.length - k + 1)).countP (fun x => decide (t < x)) = 0 := by
      rw [List.countP_eq_zero]
      intro x hx
      obtain ⟨j, hj, rfl⟩ := List.getElem_of_mem hx
      simp only [List.length_take] at hj
      rw [List.getElem_take]
      simp only [decide_eq_true_eq, not_lt, ht]
      rcases Nat.lt_or_ge j (L.length - k) with h | h
      · exact List.pairwise_iff_getElem.1 hsort j _ (by omega) hi h
      · have : j = L.length - k := by omega
        subst this; exact le_rfl
    rw [this, zero_add]
    refine lt_of_le_of_lt List.countP_le_length ?_
    rw [List.length_drop]; omega
  · rw [← hperm.countP_eq]
    conv_rhs => rw [← List.take_append_drop (L.length - k) L]
    rw [List.countP_append]
    have : (L.drop (L.length - k)).countP (fun x => decide (t ≤ x)) = k := by
      rw [List.countP_eq_length.2]
      · rw [List.length_drop]; omega
      · intro x hx
        obtain ⟨j, hj, rfl⟩ := List.getElem_of_mem hx
        simp only [List.length_drop] at hj
        rw [List.getElem_drop]
        simp only [decide_eq_true_eq, ht]
        rcases Nat.eq_zero_or_pos j with h | h
        · subst h; exact le_rfl
        · exact List.pairwise_iff_getElem.1 hsort _ _ hi (by omega) (by omega)
    omega

theorem countP_eq_filter_range (l : List ℚ) (q : ℚ → Bool) :
    l.countP q = ((List.range l.length).filter (fun c => q (l.getD c 0))).length := by
  have : l = (List.range l.length).map (fun c => l.getD c 0) := by
    apply List.ext_getElem
    · simp
    · intro i h1 h2
      simp [List.getD_eq_getElem?_getD, h1]
  conv_lhs => rw [this]
  rw [List.countP_map, List.countP_eq_length_filter]
  rfl

theorem collectUpTo_eq (n : ℕ) (l acc : List (List ℕ)) (h : acc.length < n) :
    collectUpTo n l acc = (acc ++ l).take n := by
  induction l generalizing acc with
  | nil => simp [collectUpTo, List.take_of_length_le h.le]
  | cons c cs ih =>
    unfold collectUpTo
    split
    · rename_i h1
      have : (acc ++ [c]).length = n := by simp at h1 ⊢; omega
      rw [show acc ++ c :: cs = (acc ++ [c]) ++ cs by simp, List.take_append_of_le_length (by omega), List.take_of_length_le (by omega)]
    · rename_i h1
      rw [ih _ (by omega)]
      simp

/-- Given the scores `l`, `_separable_rule_algorithm` returns exactly the committees with maximal total score. -/
theorem separableCommittees_answers (p : Profile) (l : List ℚ) (hlen : l.length = p.numCand) (a : Args) (hv : ValidCall p a) :
    Answers a (separableCommittees l p a.k a.resolute a.maxNum) (TopCommittee p (fun c => l.getD c 0) a.k) := by
  obtain ⟨t, ht1, ht2, ht3⟩ := cutoff_spec l a.k hv.pos (by rw [hlen]; exact hv.le)
  set certain := p.candidates.filter (fun c => decide (l.getD c 0 > t)) with hcertain
  set possible := p.candidates.filter (fun c => decide (l.getD c 0 = t)) with hpossible
  set missing := a.k - certain.length with hmissing
  have hmc : ∀ c, c ∈ certain ↔ c < p.numCand ∧ t < l.getD c 0 := by
    intro c
    simp only [hcertain, List.mem_filter, Profile.candidates, List.mem_range, decide_eq_true_eq, gt_iff_lt]
  have hmp : ∀ c, c ∈ possible ↔ c < p.numCand ∧ l.getD c 0 = t := by
    intro c
    simp only [hpossible, List.mem_filter, Profile.candidates, List.mem_range, decide_eq_true_eq]
  have hcn : certain.Nodup := List.nodup_range.filter _
  have hpn : possible.Nodup := List.nodup_range.filter _
  have hdisj : ∀ c ∈ certain, c ∉ possible := by
    intro c h1 h2
    have := ((hmc c).1 h1).2
    have := ((hmp c).1 h2).2
    linarith
  have hcl : certain.length < a.k := by
    rw [countP_eq_filter_range, hlen] at ht2
    exact ht2
  have hcard : a.k ≤ certain.length + possible.length := by
    have : (certain ++ possible).Perm ((List.range l.length).filter (fun c => decide (t ≤ l.getD c 0))) := by
      rw [List.perm_ext_iff_of_nodup]
      · intro c
        simp only [List.mem_append, hcertain, hpossible, List.mem_filter, Profile.candidates, hlen, decide_eq_true_eq,
          gt_iff_lt, ← and_or_left]
        refine and_congr_right fun _ => ?_
        rw [le_iff_lt_or_eq]
        exact or_congr Iff.rfl eq_comm
      · rw [List.nodup_append]
        refine ⟨hcn, hpn, ?_⟩
        rintro x hx y hy rfl
        exact hdisj x hx hy
      · exact List.nodup_range.filter _
    rw [countP_eq_filter_range, ← this.length_eq, List.length_append] at ht3
    exact ht3
  -- characterisation of the winners
  have hopt : ∀ A, TopCommittee p (fun c => l.getD c 0) a.k A ↔ certain.toFinset ⊆ A ∧ A ⊆ certain.toFinset ∪ possible.toFinset ∧ A.card = a.k := by
    intro A
    have hH : (Finset.range p.numCand).filter (fun c => t < l.getD c 0) = certain.toFinset := by
      ext c; simp [hmc]
    have hH2 : (Finset.range p.numCand).filter (fun c => t ≤ l.getD c 0) = certain.toFinset ∪ possible.toFinset := by
      ext c
      simp only [Finset.mem_filter, Finset.mem_range, Finset.mem_union, List.mem_toFinset, hmc, hmp, ← and_or_left]
      refine and_congr_right fun _ => ?_
      rw [le_iff_lt_or_eq]
      exact or_congr Iff.rfl eq_comm
    have c1 : certain.toFinset.card = certain.length := List.toFinset_card_of_nodup hcn
    have c2 : (certain.toFinset ∪ possible.toFinset).card = certain.length + possible.length := by
      rw [Finset.card_union_of_disjoint, c1, List.toFinset_card_of_nodup hpn]
      rw [Finset.disjoint_left]
      intro c h1 h2
      exact hdisj c (List.mem_toFinset.1 h1) (List.mem_toFinset.1 h2)
    have key := top_k_iff (fun c => l.getD c 0) (Finset.range p.numCand) a.k t (by rw [hH, c1]; omega) (by rw [hH2, c2]; omega)
    constructor
    · rintro ⟨⟨h1, h2⟩, h3⟩
      obtain ⟨g1, g2⟩ := (key A h1 h2).1 (fun B hB hBk => h3 B ⟨hB, hBk⟩)
      rw [hH] at g1
      refine ⟨g1, ?_, h2⟩
      rw [← hH2]
      intro c hc
      exact Finset.mem_filter.2 ⟨h1 hc, g2 c hc⟩
    · rintro ⟨g1, g2, g3⟩
      have h1 : A ⊆ Finset.range p.numCand := g2.trans (by rw [← hH2]; exact Finset.filter_subset _ _)
      refine ⟨⟨h1, g3⟩, ?_⟩
      have := (key A h1 g3).2 ⟨by rw [hH]; exact g1, fun c hc => by
        have := g2 hc
        rw [← hH2] at this
        exact (Finset.mem_filter.1 this).2⟩
      exact fun B hB => this B hB.1 hB.2
  set b := decide (possible.length = missing) with hb
  set certain' := if b then sortNat (certain ++ possible) else certain with hcertain'
  set possible' := if b then [] else possible with hpossible'
  set missing' := if b then 0 else missing with hmissing'
  have hpn' : possible'.Nodup := by rw [hpossible']; split <;> simp [hpn]
  have hsel : ∀ sel ∈ combinations possible' missing', sel.Nodup ∧ (certain' ++ sel).Nodup ∧ TopCommittee p (fun c => l.getD c 0) a.k (certain' ++ sel).toFinset := by
    intro sel hs
    rw [mem_combinations] at hs
    have hsn : sel.Nodup := hs.1.nodup hpn'
    refine ⟨hsn, ?_⟩
    have hnd : (certain' ++ sel).Nodup := by
      rw [List.nodup_append]
      rcases Bool.eq_false_or_eq_true b with hbt | hbf
      · simp only [hbt, if_true] at hcertain' hpossible' hmissing'
        have : sel = [] := by
          have := hs.2; rw [hmissing'] at this; exact List.length_eq_zero_iff.1 this
        subst this
        refine ⟨?_, hsn, by simp⟩
        rw [hcertain', sortNat_nodup, List.nodup_append]
        refine ⟨hcn, hpn, ?_⟩
        rintro x hx y hy rfl
        exact hdisj x hx hy
      · simp only [hbf, Bool.false_eq_true, if_false] at hcertain' hpossible' hmissing'
        refine ⟨by rw [hcertain']; exact hcn, hsn, ?_⟩
        rintro x hx y hy rfl
        rw [hcertain'] at hx
        have := hs.1.subset hy
        rw [hpossible'] at this
        exact hdisj x hx this
    refine ⟨hnd, ?_⟩
    rw [hopt]
    rw [List.toFinset_card_of_nodup hnd, List.length_append, hs.2]
    rcases Bool.eq_false_or_eq_true b with hbt | hbf
    · have hb' : possible.length = missing := by simpa [hb] using hbt
      simp only [hbt, if_true] at hcertain' hpossible' hmissing'
      have : sel = [] := by
        have := hs.2; rw [hmissing'] at this; exact List.length_eq_zero_iff.1 this
      subst this
      rw [hcertain', hmissing']
      simp only [List.append_nil, sortNat_toFinset, List.toFinset_append, sortNat_length, List.length_append]
      refine ⟨Finset.subset_union_left, subset_rfl, by omega⟩
    · simp only [hbf, Bool.false_eq_true, if_false] at hcertain' hpossible' hmissing'
      rw [hcertain', hmissing', List.toFinset_append]
      refine ⟨Finset.subset_union_left, ?_, by omega⟩
      refine Finset.union_subset_union_right ?_
      intro c hc
      have := hs.1.subset (List.mem_toFinset.1 hc)
      rw [hpossible'] at this
      exact List.mem_toFinset.2 this
  refine answers_sorted (cs := (combinations possible' missing').map (fun sel => certain' ++ sel)) ?_ ?_ ?_ ?_ ?_
  · intro W hW
    obtain ⟨sel, hs, rfl⟩ := List.mem_map.1 hW
    exact (hsel sel hs).2.1
  · rw [List.map_map]
    refine List.Nodup.map_on ?_ (combinations_nodup hpn' _)
    intro x hx y hy hxy
    simp only [Function.comp] at hxy
    have n1 := (hsel x hx).2.1
    have n2 := (hsel y hy).2.1
    rw [mem_combinations] at hx hy
    -- `possible'` is ascending, so equal sets give equal lists
    have hasc : possible'.Pairwise (· < ·) := by
      rw [hpossible']; split
      · simp
      · exact (pairwise_lt_range _).filter _
    refine eq_of_lt_toFinset (hasc.sublist hx.1) (hasc.sublist hy.1) ?_
    ext c
    have hc : c ∈ (certain' ++ x).toFinset ↔ c ∈ (certain' ++ y).toFinset := by rw [hxy]
    simp only [List.mem_toFinset, List.mem_append] at hc ⊢
    rw [List.nodup_append] at n1 n2
    constructor
    · intro h
      rcases hc.1 (Or.inr h) with h' | h'
      · exact absurd rfl (n1.2.2 c h' c h)
      · exact h'
    · intro h
      rcases hc.2 (Or.inr h) with h' | h'
      · exact absurd rfl (n2.2.2 c h' c h)
      · exact h'
  · intro A
    constructor
    · rintro ⟨W, hW, rfl⟩
      obtain ⟨sel, hs, rfl⟩ := List.mem_map.1 hW
      exact (hsel sel hs).2.2
    · intro hA
      rw [hopt] at hA
      obtain ⟨g1, g2, g3⟩ := hA
      rcases Bool.eq_false_or_eq_true b with hbt | hbf
      · have hb' : possible.length = missing := by simpa [hb] using hbt
        simp only [hbt, if_true] at hcertain' hpossible' hmissing'
        refine ⟨certain', ?_, ?_⟩
        · rw [hpossible', hmissing']; simp [combinations]
        · rw [hcertain', sortNat_toFinset, List.toFinset_append]
          symm
          refine Finset.eq_of_subset_of_card_le g2 ?_
          rw [g3, ← List.toFinset_append, List.toFinset_card_of_nodup, List.length_append]
          · omega
          · rw [List.nodup_append]
            refine ⟨hcn, hpn, ?_⟩
            rintro x hx y hy rfl
            exact hdisj x hx hy
      · simp only [hbf, Bool.false_eq_true, if_false] at hcertain' hpossible' hmissing'
        refine ⟨certain' ++ possible.filter (fun c => decide (c ∈ A)), List.mem_map.2 ⟨_, ?_, rfl⟩, ?_⟩
        · rw [hpossible', hmissing', mem_combinations]
          refine ⟨List.filter_sublist, ?_⟩
          have : A = certain.toFinset ∪ (possible.filter (fun c => decide (c ∈ A))).toFinset := by
            ext c
            simp only [Finset.mem_union, List.mem_toFinset, List.mem_filter, decide_eq_true_eq]
            constructor
            · intro hc
              rcases Finset.mem_union.1 (g2 hc) with h | h
              · exact Or.inl (List.mem_toFinset.1 h)
              · exact Or.inr ⟨List.mem_toFinset.1 h, hc⟩
            · rintro (h | h)
              · exact g1 (List.mem_toFinset.2 h)
              · exact h.2
          have hcard2 := congrArg Finset.card this
          rw [Finset.card_union_of_disjoint, List.toFinset_card_of_nodup hcn,
            List.toFinset_card_of_nodup (hpn.filter _)] at hcard2
          · omega
          · rw [Finset.disjoint_left]
            intro c h1 h2
            exact hdisj c (List.mem_toFinset.1 h1) (List.mem_of_mem_filter (List.mem_toFinset.1 h2))
        · rw [hcertain', List.toFinset_append]
          ext c
          simp only [Finset.mem_union, List.mem_toFinset, List.mem_filter, decide_eq_true_eq]
          constructor
          · rintro (h | h)
            · exact g1 (List.mem_toFinset.2 h)
            · exact h.2
          · intro hc
            rcases Finset.mem_union.1 (g2 hc) with h | h
            · exact Or.inl (List.mem_toFinset.1 h)
            · exact Or.inr ⟨List.mem_toFinset.1 h, hc⟩
  · intro hr
    have hin : possible'.take missing' ∈ combinations possible' missing' := by
      rw [mem_combinations]
      refine ⟨List.take_sublist _ _, ?_⟩
      rw [List.length_take, hpossible', hmissing']
      split
      · simp
      · omega
    refine ⟨certain' ++ possible'.take missing', (hsel _ hin).2.1, (hsel _ hin).2.2, ?_⟩
    unfold separableCommittees
    simp only [ht1, bind, Except.bind, hr, if_true]
    rfl
  · intro hr
    unfold separableCommittees
    simp only [ht1, bind, Except.bind, hr, Bool.false_eq_true, if_false]
    cases hm : a.maxNum with
    | none => rfl
    | some n =>
      obtain ⟨z, hz, rfl⟩ := maxNum_some hm
      have := hv.max z hz
      simp only [truncate]
      rw [collectUpTo_eq _ _ _ (by simp; omega)]
      rfl

/-- `_separable_rule_algorithm` returns exactly the committees with maximal total score. -/
theorem separableAlgorithm_answers (r : SepRule) (p : Profile) (hp : p.WF) (a : Args) (hv : ValidCall p a) :
    Answers a (separableAlgorithm r p a.k a.resolute a.maxNum) (SepOpt r p a.k) := by
  have h := separableCommittees_answers p (separableScores r p) (separableScores_length r p) a hv
  have he : TopCommittee p (fun c => (separableScores r p).getD c 0) a.k = SepOpt r p a.k := by
    have hs : ∀ B, IsCommittee p a.k B → ∑ c ∈ B, (separableScores r p).getD c 0 = ∑ c ∈ B, candScore r p c :=
      fun B hB => Finset.sum_congr rfl (fun c hc => separableScores_getD r p hp c (Finset.mem_range.1 (hB.1 hc)))
    funext A
    unfold TopCommittee SepOpt
    refine propext (and_congr_right fun hA => forall_congr' fun B => ?_)
    refine forall_congr' fun hB => ?_
    rw [hs A hA, hs B hB]
  rw [he] at h
  exact h

/-- C20: AV and SAV return exactly the committees with maximal total (satisfaction) approval score. -/
theorem C20_separable_optimal (env : Env) (r : SepRule) (p : Profile) (hp : p.WF) (a : Args)
    (hal : prologue env r.id p a = .ok "standard") :
    Answers a (computeSeparable env r p a) (SepOpt r p a.k) := by
  have hcomp : computeSeparable env r p a = separableAlgorithm r p a.k a.resolute a.maxNum := by
    unfold computeSeparable
    rw [hal]
    simp [bind, Except.bind]
  rw [hcomp]
  exact separableAlgorithm_answers r p hp a (validCall_of_prologue hal)

example : computeSeparable exampleEnv .av exampleProfile { committeesize := 2, resolute := false } = .ok [[1, 2]] := by
  decide +kernel
example : computeSeparable exampleEnv .sav ⟨4, [⟨[0, 1, 2], 1⟩, ⟨[3], 1⟩], []⟩ { committeesize := 2, resolute := false }
    = .ok [[0, 3], [1, 3], [2, 3]] := by
  decide +kernel
example : computeSeparable exampleEnv .sav ⟨4, [⟨[0, 1, 2], 1⟩, ⟨[3], 1⟩], []⟩
    { committeesize := 2, resolute := false, max := some 2 } = .ok [[0, 3], [1, 3]] := by
  decide +kernel

end Abc
